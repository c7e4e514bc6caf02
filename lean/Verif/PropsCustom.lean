import Verif.Custom
import Verif.PropsJl
import Verif.PropsJump
import Verif.PropsCount

/-!
# Property C125: user-defined stopping criterion

The solver of `examples/example_convergence_criterion.py` stops when the relative change at the C-points is below the
tolerance (in percent).
-/

set_option linter.unusedSectionVars false

namespace Pymgrit
namespace Custom
open Sys Cfg Jl

section value
variable {V K T N F : Type} [LinearOrder T] [Inhabited T] [Field F] [LinearOrder F] [IsStrictOrderedRing F]
  {d : Nat} {E : Cfg V K T N} {comp : Fin d → V → F}

theorem zipWith_maps {A B C D : Type} (f : B → C → D) (g : A → B) (h : A → C) (l : List A) :
    List.zipWith f (l.map g) (l.map h) = l.map fun x => f (g x) (h x) := by
  induction l with
  | nil => rfl
  | cons x xs ih => simp [ih]

/-- Value of one process, both iterates known. -/
theorem localValue_lt {A : Type} (l : List A) (a b : A → Fin d → F) (ε : F) (he : 0 < ε) :
    |localValue d (l.map fun j => List.ofFn (a j)) (l.map fun j => List.ofFn (b j))| < ε ↔
      ∀ j ∈ l, ∀ k, b j k ≠ 0 → 100 * |b j k - a j k| < ε * |b j k| := by
  unfold localValue
  simp only [List.length_map, ne_eq, not_true_eq_false, if_false]
  by_cases hn : 0 < l.length
  · rw [if_pos hn, abs_of_nonneg (mul_nonneg (by norm_num) (npMax_nonneg _)), ← lt_div_iff₀' (by norm_num), npMax_lt]
    rw [zipWith_maps]
    simp only [List.ofFn_eq_map, zipWith_maps, List.mem_map, List.mem_flatten, abs_abs]
    constructor
    · rintro ⟨-, h⟩ j hj k
      refine (relChange_lt _ _ ε he).1 ?_
      rw [← lt_div_iff₀' (by norm_num)]
      exact h _ ⟨_, ⟨_, ⟨j, hj, rfl⟩, List.mem_map.2 ⟨k, List.mem_finRange k, rfl⟩⟩, rfl⟩
    · intro h
      refine ⟨by positivity, ?_⟩
      rintro _ ⟨x, ⟨_, ⟨j, hj, rfl⟩, hx⟩, rfl⟩
      obtain ⟨k, -, rfl⟩ := List.mem_map.1 hx
      rw [lt_div_iff₀' (by norm_num)]
      exact (relChange_lt _ _ ε he).2 (h j hj k)
  · have : l = [] := List.length_eq_zero_iff.1 (by omega)
    subst this
    simp [he]

theorem value_nonneg (P : Nat) (last new : Nat → List (List F)) : 0 ≤ value d P last new := npMax_nonneg _

/-- The value for two iterates, by its comparison with any positive number. -/
theorem value_lt (h : Valid E.ts) (hP : 0 < E.P) (hPn : E.P ≤ npts E.ts 0) (hord : ∀ r l xs, (E.ord r l xs).Perm xs)
    (a b : GState V) (ε : F) (he : 0 < ε) :
    value d E.P (newRows E comp a) (newRows E comp b) < ε ↔
      ∀ i, i ∈ allC E.ts 0 → ∀ k, comp k (b.u 0 i) ≠ 0 →
        100 * |comp k (b.u 0 i) - comp k (a.u 0 i)| < ε * |comp k (b.u 0 i)| := by
  have hidx : ∀ i, i ∈ allC E.ts 0 → (grid E.ts 0).idxOf (tAt (grid E.ts 0) i) = i :=
    fun i hi => idxOf_tAt (h.sorted 0) (allC_lt hi)
  unfold value
  rw [npMax_lt]
  simp only [he, true_and, List.mem_map, List.mem_range, forall_exists_index, and_imp]
  have hloc : ∀ r, _ := fun r => localValue_lt (E.info r 0).idxC
    (fun j k => comp k (a.u 0 ((grid E.ts 0).idxOf (tAt (E.info r 0).t j))))
    (fun j k => comp k (b.u 0 ((grid E.ts 0).idxOf (tAt (E.info r 0).t j)))) ε he
  constructor
  · intro H i hi
    obtain ⟨r, hr, j, hj, e⟩ := (mem_times h hP hPn hord (tAt (grid E.ts 0) i)).2 ⟨i, hi, rfl⟩
    have := (hloc r).1 (H _ r hr rfl) j hj
    have e' : tAt (E.info r 0).t j = tAt (grid E.ts 0) i := e
    rw [e', hidx i hi] at this
    exact this
  · rintro H _ r hr rfl
    refine (hloc r).2 fun j hj => ?_
    obtain ⟨i, hi, e⟩ := (mem_times h hP hPn hord _).1 ⟨r, hr, j, hj, rfl⟩
    have e' : tAt (grid E.ts 0) i = tAt (E.info r 0).t j := e
    rw [← e', hidx i hi]
    exact H i hi

/-- The value computed by the constructor, where `last_it` is empty, is that for a previous iterate of zeros. -/
theorem localValue_nil {A : Type} (l : List A) (b : A → Fin d → F) :
    localValue d [] (l.map fun j => List.ofFn (b j)) =
      localValue d (l.map fun _ => List.ofFn fun _ : Fin d => (0 : F)) (l.map fun j => List.ofFn (b j)) := by
  unfold localValue
  cases l with
  | nil => simp
  | cons x xs =>
    have e : (List.ofFn fun _ : Fin d => (0 : F)) = List.replicate d 0 := by simp
    simp only [List.length_map, List.length_cons, List.length_nil, e]
    have e2 : (List.map (fun _ => List.replicate d (0 : F)) (x :: xs)) = List.replicate (xs.length + 1) (List.replicate d 0) := by
      rw [List.map_const', List.length_cons]
    rw [e2]
    simp

end value

section
variable {V K T N F : Type} [LinearOrder T] [Inhabited T] [Field F] [LinearOrder F]
  [Add V] [Sub V] [SMul K V] [One K] [Sub K] [Zero N] {d : Nat} (E : Cfg V K T N) (comp : Fin d → V → F) (tol : F)

/-- The iterates of `Mgrit`. -/
def iter (m : Nat) : GState V := iterates E.sys E.sys.forwardSolve E.cyc m (afterConstructor E).st

/-- The number recorded after iteration `m`. -/
def recorded : Nat → F
  | 0 => value d E.P (fun _ => []) (newRows E comp (iter E 0))
  | m + 1 => value d E.P (newRows E comp (iter E m)) (newRows E comp (iter E (m + 1)))

/-- The state after `m` iterations. -/
def after (m : Nat) : CRun V F where
  st := iter E m
  last := newRows E comp (iter E m)
  conv := fun j => if j ≤ m then recorded E comp j else 0
  iter := m

theorem construct_eq : construct E comp = after E comp 0 := by
  unfold construct criterion after
  congr 1
  funext j
  by_cases hj : j = 0
  · subst hj; simp [recorded, iter, iterates]
  · simp [hj]

theorem body_eq (m : Nat) : body E comp m (after E comp m) = after E comp (m + 1) := by
  unfold body criterion after
  have e : E.sys.fineIteration E.sys.forwardSolve E.cyc m (iter E m) = iter E (m + 1) := rfl
  simp only [e]
  congr 1
  funext j
  by_cases hj : j = m + 1
  · subst hj; simp [recorded]
  · rw [Function.update_of_ne hj]
    by_cases h : j ≤ m
    · rw [if_pos h, if_pos (by omega)]
    · rw [if_neg h, if_neg (by omega)]

theorem loop_eq (k m : Nat) (hk : 0 < k) (hm : m + k = E.maxIter) : ∃ q, m + 1 ≤ q ∧ q ≤ E.maxIter ∧
    loop E comp tol k m (after E comp m) = after E comp q ∧
    (∀ j, m + 1 ≤ j → j < q → ¬ recorded E comp j < tol) ∧ (recorded E comp q < tol ∨ q = E.maxIter) := by
  induction k generalizing m with
  | zero => omega
  | succ k ih =>
    have hb := body_eq E comp m
    unfold loop
    simp only [hb]
    have hc : (after E comp (m + 1)).conv (m + 1) = recorded E comp (m + 1) := by simp [after]
    rw [hc]
    by_cases hs : recorded E comp (m + 1) < tol ∨ m + 1 = E.maxIter
    · rw [if_pos hs]
      exact ⟨m + 1, le_rfl, by omega, rfl, fun j h1 h2 => by omega, hs⟩
    · rw [if_neg hs]
      obtain ⟨s1, s2⟩ := not_or.1 hs
      obtain ⟨q, q1, q2, q3, q4, q5⟩ := ih (m + 1) (by omega) (by omega)
      refine ⟨q, by omega, q2, q3, fun j h1 h2 => ?_, q5⟩
      rcases Nat.eq_or_lt_of_le h1 with e | e
      · rw [← e]; exact s1
      · exact q4 j e h2

theorem solve_eq (hmax : 0 < E.maxIter) : ∃ q, 1 ≤ q ∧ q ≤ E.maxIter ∧ solve E comp tol = after E comp q ∧
    (∀ j, 1 ≤ j → j < q → ¬ recorded E comp j < tol) ∧ (recorded E comp q < tol ∨ q = E.maxIter) := by
  unfold solve
  rw [construct_eq]
  exact loop_eq E comp tol E.maxIter 0 hmax (by omega)

end

section props
variable {V K T N F : Type} [LinearOrder T] [Inhabited T] [Field F] [LinearOrder F] [IsStrictOrderedRing F]
  [Add V] [Sub V] [SMul K V] [One K] [Sub K] [Zero N] {d : Nat} {E : Cfg V K T N} {comp : Fin d → V → F} {tol : F}

/-- The relative change from `a` to `b` is below `ε` percent: for every component that is not zero in `b` at a C-point of
the finest level. -/
def ChangeBelow (E : Cfg V K T N) (comp : Fin d → V → F) (ε : F) (a b : Nat → V) : Prop :=
  ∀ i, i ∈ allC E.ts 0 → ∀ k, comp k (b i) ≠ 0 → 100 * |comp k (b i) - comp k (a i)| < ε * |comp k (b i)|

/-- C125.  With the overridden criterion `solve()` performs `m` iterations of `Mgrit` and returns their result; `m` is the
first number of iterations, up to the maximum, for which the last iteration changed the C-points by less than the tolerance
(in percent); the number recorded for each iteration is the maximum of these changes, i.e. the smallest number that they
do not exceed. -/
theorem C125_stops_partial (h : Valid E.ts) (hP : 0 < E.P) (hPn : E.P ≤ npts E.ts 0) (hord : ∀ r l xs, (E.ord r l xs).Perm xs)
    (hmax : 0 < E.maxIter) (ht : 0 < tol) :
    ∃ m, 1 ≤ m ∧ m ≤ E.maxIter ∧ (solve E comp tol).iter = m ∧
      (solve E comp tol).st = iterates E.sys E.sys.forwardSolve E.cyc m (afterConstructor E).st ∧
      (∀ j, 1 ≤ j → j < m → ¬ ChangeBelow E comp tol ((iter E (j - 1)).u 0) ((iter E j).u 0)) ∧
      (ChangeBelow E comp tol ((iter E (m - 1)).u 0) ((iter E m).u 0) ∨ m = E.maxIter) ∧
      (∀ j, 1 ≤ j → j ≤ m → 0 ≤ (solve E comp tol).conv j ∧ ∀ ε, 0 < ε →
        ((solve E comp tol).conv j < ε ↔ ChangeBelow E comp ε ((iter E (j - 1)).u 0) ((iter E j).u 0))) := by
  obtain ⟨q, q1, q2, q3, q4, q5⟩ := solve_eq E comp tol hmax
  have key : ∀ j, 1 ≤ j → ∀ ε, 0 < ε → (recorded E comp j < ε ↔ ChangeBelow E comp ε ((iter E (j - 1)).u 0) ((iter E j).u 0)) := by
    intro j hj ε he
    obtain ⟨j, rfl⟩ : ∃ i, j = i + 1 := ⟨j - 1, by omega⟩
    exact value_lt h hP hPn hord _ _ ε he
  refine ⟨q, q1, q2, by rw [q3]; rfl, by rw [q3]; rfl, fun j h1 h2 hb => q4 j h1 h2 ((key j h1 tol ht).2 hb),
    q5.imp (fun hb => (key q q1 tol ht).1 hb) id, fun j h1 h2 => ?_⟩
  have e : (solve E comp tol).conv j = recorded E comp j := by
    rw [q3]
    show (if j ≤ q then _ else _) = _
    rw [if_pos h2]
  rw [e]
  refine ⟨?_, key j h1⟩
  obtain ⟨j, rfl⟩ : ∃ i, j = i + 1 := ⟨j - 1, by omega⟩
  exact value_nonneg _ _ _

/-- The recorded numbers do not depend on the number of processes. -/
theorem recorded_processes (h : Valid E.ts) (hP : 0 < E.P) (hPn : E.P ≤ npts E.ts 0)
    (hord : ∀ r l xs, (E.ord r l xs).Perm xs) {P' : Nat} {ord' : Nat → Nat → List Nat → List Nat} (hP' : 0 < P')
    (hPn' : P' ≤ npts E.ts 0) (hord' : ∀ r l xs, (ord' r l xs).Perm xs) (a b : GState V) :
    value d E.P (newRows E comp a) (newRows E comp b) =
      value d P' (newRows { E with P := P', ord := ord' } comp a) (newRows { E with P := P', ord := ord' } comp b) := by
  have key : ∀ ε : F, 0 < ε → (value d E.P (newRows E comp a) (newRows E comp b) < ε ↔
      value d P' (newRows { E with P := P', ord := ord' } comp a) (newRows { E with P := P', ord := ord' } comp b) < ε) :=
    fun ε he => (value_lt h hP hPn hord a b ε he).trans
      (value_lt (E := { E with P := P', ord := ord' }) h hP' hPn' hord' a b ε he).symm
  rcases lt_trichotomy (value d E.P (newRows E comp a) (newRows E comp b))
    (value d P' (newRows { E with P := P', ord := ord' } comp a) (newRows { E with P := P', ord := ord' } comp b))
    with hlt | he | hlt
  · exact absurd ((key _ (lt_of_le_of_lt (value_nonneg _ _ _) hlt)).1 hlt) (lt_irrefl _)
  · exact he
  · exact absurd ((key _ (lt_of_le_of_lt (value_nonneg _ _ _) hlt)).2 hlt) (lt_irrefl _)

/-- C125, the solver does not depend on the number of processes: same number of iterations, same arrays, same recorded
numbers from the first iteration on. -/
theorem C125_processes (h : Valid E.ts) (hP : 0 < E.P) (hPn : E.P ≤ npts E.ts 0)
    (hord : ∀ r l xs, (E.ord r l xs).Perm xs) {P' : Nat} {ord' : Nat → Nat → List Nat → List Nat} (hP' : 0 < P')
    (hPn' : P' ≤ npts E.ts 0) (hord' : ∀ r l xs, (ord' r l xs).Perm xs) (hmax : 0 < E.maxIter) :
    let A := solve E comp tol
    let B := solve { E with P := P', ord := ord' } comp tol
    A.iter = B.iter ∧ A.st = B.st ∧ ∀ j, 1 ≤ j → A.conv j = B.conv j := by
  have hr : ∀ j, 1 ≤ j → recorded E comp j = recorded { E with P := P', ord := ord' } comp j := by
    intro j hj
    obtain ⟨j, rfl⟩ : ∃ i, j = i + 1 := ⟨j - 1, by omega⟩
    exact recorded_processes h hP hPn hord hP' hPn' hord' (iter E j) (iter E (j + 1))
  obtain ⟨q, q1, q2, q3, q4, q5⟩ := solve_eq E comp tol hmax
  obtain ⟨p, p1, p2, p3, p4, p5⟩ := solve_eq { E with P := P', ord := ord' } comp tol hmax
  have hpq : p = q := by
    rcases lt_trichotomy p q with hlt | he | hlt
    · have := q4 p p1 hlt
      rw [hr p p1] at this
      rcases p5 with c | c
      · exact absurd c this
      · have c' : p = E.maxIter := c
        omega
    · exact he
    · have := p4 q q1 hlt
      rw [← hr q q1] at this
      rcases q5 with c | c
      · exact absurd c this
      · have c' : p ≤ E.maxIter := p2
        omega
  subst hpq
  refine ⟨by rw [q3, p3]; rfl, by rw [q3, p3]; rfl, fun j hj => ?_⟩
  rw [q3, p3]
  show (if j ≤ p then _ else _) = if j ≤ p then _ else _
  split
  · exact hr j hj
  · rfl

/-- Entry zero of the convergence array, written by the constructor: below `ε ≤ 100` only if all components at the C-points
are zero, and never above `100`. -/
theorem recorded_zero (h : Valid E.ts) (hP : 0 < E.P) (hPn : E.P ≤ npts E.ts 0) (hord : ∀ r l xs, (E.ord r l xs).Perm xs)
    (i : Nat) (hi : i ∈ allC E.ts 0) (k : Fin d) (hk : comp k ((iter E 0).u 0 i) ≠ 0) : recorded E comp 0 = 100 := by
  have h100 : (0 : F) < 100 := by norm_num
  have hidx : (grid E.ts 0).idxOf (tAt (grid E.ts 0) i) = i := idxOf_tAt (h.sorted 0) (allC_lt hi)
  have hloc : ∀ r, ∀ ε : F, 0 < ε → (|localValue d [] (newRows E comp (iter E 0) r)| < ε ↔
      ∀ j ∈ (E.info r 0).idxC, ∀ k, comp k ((iter E 0).u 0 ((grid E.ts 0).idxOf (tAt (E.info r 0).t j))) ≠ 0 →
        100 * |comp k ((iter E 0).u 0 ((grid E.ts 0).idxOf (tAt (E.info r 0).t j))) - 0| <
          ε * |comp k ((iter E 0).u 0 ((grid E.ts 0).idxOf (tAt (E.info r 0).t j)))|) := fun r ε he => by
    unfold newRows
    rw [localValue_nil]
    exact localValue_lt (E.info r 0).idxC (fun _ _ => 0)
      (fun j k => comp k ((iter E 0).u 0 ((grid E.ts 0).idxOf (tAt (E.info r 0).t j)))) ε he
  have hle : recorded E comp 0 ≤ 100 := by
    refine npMax_le h100.le fun x hx => ?_
    obtain ⟨r, -, rfl⟩ := List.mem_map.1 hx
    refine le_of_forall_gt_imp_ge_of_dense fun ε he => le_of_lt ?_
    refine (hloc r ε (h100.trans he)).2 fun j _ k hk => ?_
    rw [sub_zero]
    exact mul_lt_mul_of_pos_right he (abs_pos.2 hk)
  refine le_antisymm hle (not_lt.1 fun hlt => ?_)
  obtain ⟨r, hr, j, hj, e⟩ := (mem_times h hP hPn hord (tAt (grid E.ts 0) i)).2 ⟨i, hi, rfl⟩
  have e' : tAt (E.info r 0).t j = tAt (grid E.ts 0) i := e
  have h1 : |localValue d [] (newRows E comp (iter E 0) r)| < 100 :=
    lt_of_le_of_lt (le_npMax (List.mem_map.2 ⟨r, List.mem_range.2 hr, rfl⟩)) hlt
  have h2 := (hloc r 100 h100).1 h1 j hj k (by rw [e', hidx]; exact hk)
  rw [sub_zero] at h2
  exact lt_irrefl _ h2

/-- C125 fails for the returned history: as soon as one component at a C-point is not zero before the first iteration, the
history has an additional first entry `100` that belongs to no iteration. -/
theorem C125_history_counterexample (h : Valid E.ts) (hP : 0 < E.P) (hPn : E.P ≤ npts E.ts 0)
    (hord : ∀ r l xs, (E.ord r l xs).Perm xs) (hmax : 0 < E.maxIter)
    (i : Nat) (hi : i ∈ allC E.ts 0) (k : Fin d) (hk : comp k ((afterConstructor E).st.u 0 i) ≠ 0) :
    history E (solve E comp tol) = 100 ::
      ((List.range (solve E comp tol).iter).map fun j => (solve E comp tol).conv (j + 1)).filter fun x => decide (x ≠ 0) := by
  obtain ⟨q, q1, q2, q3, q4, q5⟩ := solve_eq E comp tol hmax
  have h0 := recorded_zero (E := E) (comp := comp) h hP hPn hord i hi k hk
  rw [q3]
  have hc0 : (after E comp q).conv 0 = 100 := by
    show (if 0 ≤ q then recorded E comp 0 else 0) = 100
    rw [if_pos (Nat.zero_le _), h0]
  have hit : (after E comp q).iter = q := rfl
  unfold history
  rw [List.range_succ_eq_map, List.map_cons, List.filter_cons_of_pos (by rw [hc0]; norm_num), hc0, hit, List.map_map]
  congr 1
  obtain ⟨n, hn⟩ := Nat.exists_eq_add_of_le q2
  rw [hn, List.range_add, List.map_append, List.filter_append]
  have hnil : ((List.map ((after E comp q).conv ∘ Nat.succ) (List.map (fun x => q + x) (List.range n))).filter
      fun x => decide (x ≠ 0)) = [] := by
    rw [List.filter_eq_nil_iff]
    intro x hx
    obtain ⟨y, hy, rfl⟩ := List.mem_map.1 hx
    obtain ⟨z, -, rfl⟩ := List.mem_map.1 hy
    have : (after E comp q).conv (q + z + 1) = 0 := by
      show (if q + z + 1 ≤ q then _ else _) = _
      rw [if_neg (by omega)]
    simp [this]
  rw [hnil, List.append_nil]
  rfl

end props

section group
variable {V K T N F : Type} [LinearOrder T] [Inhabited T] [Field F] [LinearOrder F] [IsStrictOrderedRing F]
  [AddCommGroup V] [Ring K] [Module K V] [Zero N] {d : Nat} {E : Cfg V K T N} {comp : Fin d → V → F} {tol : F}

/-- C125, number of iterations.  Weight one, transfers that map zero to zero: at most one iteration more than finite
termination needs, whatever the (positive) tolerance. -/
theorem C125_terminates (h : Valid E.ts) (hP : 0 < E.P) (hPn : E.P ≤ npts E.ts 0) (hord : ∀ r l xs, (E.ord r l xs).Perm xs)
    (hmax : 0 < E.maxIter) (ht : 0 < tol) (hL : 1 < E.ts.length) (hw : E.w = 1)
    (hR : ∀ l, l + 1 < E.ts.length → E.R l 0 = 0) (hI : ∀ l, l + 1 < E.ts.length → E.I l 0 = 0)
    (m : Nat) (hm : 1 ≤ m) (hk : npts E.ts 1 - 1 ≤ m * E.cf 0) :
    (solve E comp tol).iter ≤ m + 1 := by
  have hwf := E.sys_wf h
  obtain ⟨q, -, q2, hit, -, q4, -, -⟩ := C125_stops_partial (comp := comp) h hP hPn hord hmax ht
  rw [hit]
  by_contra hlt
  refine q4 (m + 1) (by omega) (by omega) ?_
  have hs : ∀ a, m ≤ a → Solved (E.sys.Φ 0) (E.sys.n 0) ((iter E a).u 0) := fun a ha =>
    C95_finite_termination hwf hL hw hR hI E.cyc a (by omega) (le_trans hk (Nat.mul_le_mul_right _ ha)) _
  have h0 : ∀ a, (iter E a).u 0 0 = (afterConstructor E).st.u 0 0 := fun a => (keeps_iterates hwf E.cyc a _).zero
  intro i hi k hne
  have hin : i < E.sys.n 0 := allC_lt hi
  have e : (iter E (m + 1)).u 0 i = (iter E m).u 0 i := by
    rw [hs (m + 1) (by omega) i hin, hs m le_rfl i hin, h0, h0]
  rw [Nat.add_sub_cancel, ← e, sub_self, abs_zero, mul_zero]
  exact mul_pos ht (abs_pos.2 hne)

/-- C125, a recorded zero.  Weight one, transfers that map zero to zero, at least one FCF-relaxation, components that
determine the vector and are not zero at the C-points: if the last recorded number is zero, the result is sequential time
stepping.  Components that are zero must be excluded (`C125_counterexample`). -/
theorem C125_zero_partial (h : Valid E.ts) (hP : 0 < E.P) (hPn : E.P ≤ npts E.ts 0) (hord : ∀ r l xs, (E.ord r l xs).Perm xs)
    (hmax : 0 < E.maxIter) (ht : 0 < tol) (hL : 1 < E.ts.length) (hw : E.w = 1) (hcf : 1 ≤ E.cf 0)
    (hR : ∀ l, l + 1 < E.ts.length → E.R l 0 = 0) (hI : ∀ l, l + 1 < E.ts.length → E.I l 0 = 0)
    (hcomp : ∀ x y : V, (∀ k, comp k x = comp k y) → x = y)
    (hne : ∀ i, i ∈ allC E.ts 0 → i ≠ 0 → ∀ k, comp k ((solve E comp tol).st.u 0 i) ≠ 0)
    (hz : (solve E comp tol).conv (solve E comp tol).iter = 0) :
    Solved (E.sys.Φ 0) (E.sys.n 0) ((solve E comp tol).st.u 0) := by
  have hwf := E.sys_wf h
  obtain ⟨q, q1, q2, hit, hst, q4, -, q5⟩ := C125_stops_partial (comp := comp) h hP hPn hord hmax ht
  obtain ⟨m, rfl⟩ : ∃ m, q = m + 1 := ⟨q - 1, by omega⟩
  rw [hst] at hne ⊢
  refine C96_lossy hwf hL hw hcf hR hI E.cyc m _ fun i hi hi0 => hcomp _ _ fun k => ?_
  have hb := (q5 (m + 1) q1 le_rfl).2
  rw [hit] at hz
  rw [hz] at hb
  have hk : comp k ((iter E (m + 1)).u 0 i) ≠ 0 := hne i hi hi0 k
  show comp k ((iter E (m + 1)).u 0 i) = comp k ((iter E m).u 0 i)
  by_contra hc
  have hd := abs_pos.2 (sub_ne_zero.2 hc)
  have hp := abs_pos.2 hk
  have hpos := div_pos (mul_pos (show (0 : F) < 100 by norm_num) hd) hp
  have := (hb _ hpos).1 hpos i hi k hk
  rw [div_mul_cancel₀ _ hp.ne'] at this
  exact lt_irrefl _ this

end group

section error
variable {V : Type} [AddCommGroup V] [Module ℝ V] {N : Type} [Zero N] {E : Cfg V ℝ ℝ N} {p : Seminorm ℝ V} {κ : ℝ} {d : Nat}
  {comp : Fin d → V → ℝ} {tol : ℝ}

/-- C125, what the tolerance says about the error.  A time stepper as in `C93_multilevel` with rate `q < 1`; the seminorm is
at most the largest component; the components at the C-points are not zero and at most `M` in absolute value.  If the
solver stopped before the maximum number of iterations, the error at every point is at most `q / (1 - q)` times the
tolerance (in percent) of `M`. -/
theorem C125_error_partial (h : E.Good) (hord : ∀ r l xs, (E.ord r l xs).Perm xs) (hPn : E.P ≤ npts E.ts 0) (ht : 0 < tol)
    (hT : Copying E) (hκ : 0 ≤ κ) (hA : Approx E.sys p κ) (hq : convRate E κ < 1)
    (hp : ∀ (x y : V) (δ : ℝ), 0 ≤ δ → (∀ k, |comp k x - comp k y| ≤ δ) → p (x - y) ≤ δ) (M : ℝ)
    (hne : ∀ i, i ∈ allC E.ts 0 → i ≠ 0 → ∀ k,
      comp k ((solve E comp tol).st.u 0 i) ≠ 0 ∧ |comp k ((solve E comp tol).st.u 0 i)| ≤ M) (hM : 0 ≤ M)
    (hstop : (solve E comp tol).iter < E.maxIter) (i : Nat) (hi : i < npts E.ts 0) :
    p ((solve E comp tol).st.u 0 i - timeStepping E i) ≤ convRate E κ / (1 - convRate E κ) * (tol / 100 * M) := by
  obtain ⟨q, q1, q2, hit, hst, -, q5, -⟩ := C125_stops_partial (comp := comp) h.valid h.Ppos hPn hord (by omega) ht
  obtain ⟨m, rfl⟩ : ∃ m, q = m + 1 := ⟨q - 1, by omega⟩
  rw [hit] at hstop
  have hb := q5.resolve_right (by omega)
  rw [hst] at hne ⊢
  have hδ : 0 ≤ tol / 100 * M := mul_nonneg (by positivity) hM
  refine jump_err h hT hκ hA hq m _ hδ (fun j hj hj0 => hp _ _ _ hδ fun k => ?_) i hi
  obtain ⟨n1, n2⟩ := hne j hj hj0 k
  have h1 := hb j hj k n1
  have h2 : tol * |comp k ((iter E (m + 1)).u 0 j)| ≤ tol * M := mul_le_mul_of_nonneg_left n2 ht.le
  rw [Nat.add_sub_cancel] at h1
  have h3 : 100 * |comp k ((iter E (m + 1)).u 0 j) - comp k ((iter E m).u 0 j)| ≤ tol * M := h1.le.trans h2
  have e : tol / 100 * M = tol * M / 100 := by ring
  rw [e, le_div_iff₀' (by norm_num)]
  exact h3

end error

/-! ## Concrete cases and refutation -/

/-- Three coarse intervals of two steps each; `step` on the finest level, a coarse step that gives `coarse x`. -/
def exCustom (step : ℚ → Nat → ℚ) (coarse : ℚ → ℚ) (start guess : ℚ) : Cfg ℚ ℚ Nat ℚ where
  ts := exQtyGrid
  step := fun l x t _ => if l = 0 then step x t else coarse x
  R := fun _ x => x
  I := fun _ x => x
  cf := fun _ => 1
  w := 1
  start := fun _ => start
  zero := fun _ => 0
  guess := fun _ => guess
  cyc := Sys.Cycle.V
  nested := false
  maxIter := 5
  convCrit := 0
  norm := fun x => |x|
  tnorm := fun xs => (xs.map fun x => |x|).sum
  ltTol := fun x => decide (x < 1)
  outLvl := 0
  ord := fun _ _ xs => xs
  P := 2
  instr := false

/-- The solution is `0` up to time `4` and `1` afterwards; the coarse step gives `0`, the initial guess is `1`. -/
def exCounter : Cfg ℚ ℚ Nat ℚ := exCustom (fun x t => if t = 4 then 1 - x else x) (fun _ => 0) 0 1

/-- Values double in each step; the coarse step is exact up to the value `20`. -/
def exDouble : Cfg ℚ ℚ Nat ℚ := exCustom (fun x _ => 2 * x) (fun x => min (4 * x) 20) 1 1

/-- C125 fails for components that become zero: the first iteration changes every C-point other than the first from `1` to
`0`, the number recorded is `0`, and the solver stops with tolerance one percent although the value at the last point, `0`,
is not the one of time stepping, `1`. -/
theorem C125_counterexample :
    let s := solve exCounter (fun (_ : Fin 1) x => x) 1
    s.iter = 1 ∧ s.conv 1 = 0 ∧
      (∀ i ∈ [2, 4, 6], (afterConstructor exCounter).st.u 0 i = 1 ∧ s.st.u 0 i = 0) ∧
      timeStepping exCounter 6 = 1 ∧ history exCounter s = [100] := by
  decide +kernel

/-- `C125_stops_partial`, `C125_processes`, `C125_history_counterexample` and `C125_terminates` for `exDouble`. -/
example : ∃ m, 1 ≤ m ∧ m ≤ 5 ∧ (solve exDouble (fun (_ : Fin 1) x => x) 1).iter = m := by
  obtain ⟨m, h1, h2, h3, -⟩ := C125_stops_partial (E := exDouble) (comp := fun (_ : Fin 1) x => x) (tol := 1) exQtyGrid_valid
    (by decide) (by decide) (fun _ _ _ => List.Perm.refl _) (by decide) (by norm_num)
  exact ⟨m, h1, h2, h3⟩

example : (solve exDouble (fun (_ : Fin 1) x => x) (1 : ℚ)).iter =
    (solve { exDouble with P := 4, ord := fun _ _ xs => xs } (fun (_ : Fin 1) x => x) (1 : ℚ)).iter :=
  (C125_processes (E := exDouble) exQtyGrid_valid (by decide) (by decide) (fun _ _ _ => List.Perm.refl _)
    (show 0 < 4 by decide) (by decide) (fun _ _ _ => List.Perm.refl _) (by decide)).1

example := C125_history_counterexample (E := exDouble) (comp := fun (_ : Fin 1) x => x) (tol := 1) exQtyGrid_valid
  (by decide) (by decide) (fun _ _ _ => List.Perm.refl _) (by decide) 2 (by decide) 0 (by decide +kernel)

example : (solve exDouble (fun (_ : Fin 1) x => x) (1 : ℚ)).iter ≤ 4 :=
  C125_terminates (E := exDouble) exQtyGrid_valid (by decide) (by decide) (fun _ _ _ => List.Perm.refl _) (by decide)
    (by norm_num) (by decide) rfl (fun _ _ => rfl) (fun _ _ => rfl) 3 (by decide) (by decide)

/-- `C125_zero_partial`. -/
example : Solved (exDouble.sys.Φ 0) (exDouble.sys.n 0) ((solve exDouble (fun (_ : Fin 1) x => x) (1 : ℚ)).st.u 0) :=
  C125_zero_partial (E := exDouble) exQtyGrid_valid (by decide) (by decide) (fun _ _ _ => List.Perm.refl _) (by decide)
    (by norm_num) (by decide) rfl le_rfl (fun _ _ => rfl) (fun _ _ => rfl) (fun _ _ h => h 0)
    (by
      have e : allC exDouble.ts 0 = [0, 2, 4, 6] := by decide
      rw [e]
      decide +kernel) (by decide +kernel)

/-- Backward Euler for `u' = 2 (1 - u)`. -/
noncomputable def exRelax : Nat → ℝ → ℝ → ℝ → ℝ := fun _ u t t' => (u + (t' - t) * 2) / (1 + (t' - t) * 2)

/-- `C125_error_partial` for `exRelax` started at its equilibrium. -/
example (i : Nat) (hi : i < 5) : let E := exTol exRelax 1 1 false 1 (fun x => |x|) norm2
    |(solve E (fun (_ : Fin 1) x => x) 5).st.u 0 i - timeStepping E i| ≤ 1 / 3 / (1 - 1 / 3) * (5 / 100 * 1) := by
  intro E
  have hg := exTol_good exRelax 1 1 false (Or.inr rfl) (fun x => |x|) norm2
  have hwf := E.sys_wf hg.1.valid
  have hd : Damped E LinearMap.id 2 := by
    intro l x y t t' _ ht
    have : (0 : ℝ) < 1 + (t' - t) * 2 := by linarith
    show (x + (t' - t) * 2) / (1 + (t' - t) * 2) - (y + (t' - t) * 2) / (1 + (t' - t) * 2) = _ * (x - y)
    field_simp
    ring
  have hone : ∀ j, j < 5 → seqSol (E.sys.Φ 0) 1 j = 1 := by
    intro j
    induction j with
    | zero => intro _; rfl
    | succ j ih =>
      intro hj
      have hm := tAt_mono (hg.1.valid.sorted 0) (i := j) (j := j + 1) (by omega) hj
      have : (0 : ℝ) < 1 + (tAt (grid E.ts 0) (j + 1) - tAt (grid E.ts 0) j) * 2 := by
        have : (0 : ℝ) ≤ tAt (grid E.ts 0) (j + 1) - tAt (grid E.ts 0) j := sub_nonneg.2 hm
        linarith
      show exRelax 0 (seqSol _ _ j) (tAt (grid E.ts 0) j) (tAt (grid E.ts 0) (j + 1)) = 1
      rw [ih (by omega)]
      exact div_self this.ne'
  have hc : ∀ j, (afterConstructor E).st.u 0 j = 1 := by
    intro j
    rw [constructor_value rfl]
    show (if j = 0 then (1 : ℝ) else if 0 = 0 then 1 else 0) = 1
    split <;> simp
  have hall : ∀ m, Solved (E.sys.Φ 0) (E.sys.n 0) ((iter E m).u 0) := by
    intro m
    induction m with
    | zero =>
      intro j hj
      show (afterConstructor E).st.u 0 j = seqSol (E.sys.Φ 0) ((afterConstructor E).st.u 0 0) j
      rw [hc, hc, hone j hj]
    | succ m ih => exact (C12_fixed_point hwf (fun _ _ => rfl) (fun _ _ => rfl) E.cyc m _ ih).2.1
  have hval : ∀ m j, j < 5 → (iter E m).u 0 j = 1 := by
    intro m j hj
    rw [hall m j hj, show (iter E m).u 0 0 = (afterConstructor E).st.u 0 0 from (keeps_iterates hwf E.cyc m _).zero, hc,
      hone j hj]
  have hC : ∀ j, j ∈ allC E.ts 0 → j < 5 := fun j hj => allC_lt hj
  obtain ⟨m, m1, -, m3, m4, m5, -⟩ := C125_stops_partial (E := E) (comp := fun (_ : Fin 1) x => x) (tol := (5 : ℝ)) hg.1.valid
    (show 0 < 3 by decide) (show 3 ≤ 5 by decide) (fun _ _ _ => List.Perm.refl _) (show 0 < 6 by decide) (by norm_num)
  have hm : m = 1 := by
    by_contra hne
    refine m5 1 le_rfl (by omega) fun j hj k _ => ?_
    show 100 * |(iter E 1).u 0 j - (iter E 0).u 0 j| < 5 * |(iter E 1).u 0 j|
    rw [hval _ j (hC j hj), hval _ j (hC j hj)]
    norm_num
  subst hm
  have := C125_error_partial (E := E) (comp := fun (_ : Fin 1) x => x) (tol := 5) (p := (normSeminorm ℝ ℝ).comp LinearMap.id)
    (κ := 1 / 3) hg.1 (fun _ _ _ => List.Perm.refl _) (show 3 ≤ 5 by decide) (by norm_num) hg.2.copying (by norm_num)
    (hd.approx hg.1.valid (by norm_num)) (by rw [(hg.2.rate _).1]; norm_num) (fun x y δ _ h => h 0) 1
    (fun j hj _ k => by
      rw [m4]
      show (iter E 1).u 0 j ≠ 0 ∧ |(iter E 1).u 0 j| ≤ 1
      rw [hval 1 j (hC j hj)]
      norm_num) (by norm_num) (by rw [m3]; show 1 < 6; decide) i hi
  rw [(hg.2.rate _).1] at this
  exact this

end Custom
end Pymgrit
