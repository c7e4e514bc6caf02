import Verif.Mesh
import Verif.PropsMachine
import Mathlib.Tactic.FieldSimp
import Mathlib.Tactic.Ring
import Mathlib.Tactic.Linarith
import Mathlib.Tactic.LinearCombination
import Mathlib.Tactic.NormNum
import Mathlib.Algebra.Field.Rat
import Mathlib.Algebra.Order.Ring.Rat

/-!
# Properties C79, C80: transfer data and interpolation of the induction machine
-/

set_option linter.unusedSectionVars false

namespace Pymgrit.Mesh
open Pymgrit.Machine

/-! ### Lists -/

theorem mapM_ok {α β : Type} {f : α → Except String β} :
    ∀ {xs : List α} {ys : List β}, xs.mapM f = .ok ys → List.Forall₂ (fun x y => f x = .ok y) xs ys
  | [], ys, h => by
    rw [List.mapM_nil] at h
    cases h
    exact .nil
  | x :: xs, ys, h => by
    rw [List.mapM_cons] at h
    cases hx : f x with
    | error e => rw [hx] at h; cases h
    | ok y =>
      rw [hx] at h
      cases hxs : xs.mapM f with
      | error e => rw [hxs] at h; cases h
      | ok zs =>
        rw [hxs] at h
        cases h
        exact .cons hx (mapM_ok hxs)

/-- Positions of the elements with property `f`. -/
def positions {α : Type} (f : α → Bool) (xs : List α) : List Nat :=
  (xs.zipIdx.filter fun e => f e.1).map (·.2)

theorem length_positions {α : Type} (f : α → Bool) (xs : List α) :
    (positions f xs).length = (xs.filter f).length := by
  have : ∀ n, ((xs.zipIdx n).filter fun e => f e.1).length = (xs.filter f).length := by
    induction xs with
    | nil => intro n; rfl
    | cons x xs ih =>
      intro n
      rw [List.zipIdx_cons, List.filter_cons, List.filter_cons]
      by_cases h : f x = true
      · simp only [h, if_true, List.length_cons, ih]
      · simp only [h, Bool.false_eq_true, if_false, ih]
  unfold positions
  rw [List.length_map, this]

variable {K : Type} [Field K] [LinearOrder K]

theorem npIn_self {p : K × K} {arr : List (K × K)} (h : p ∈ arr) : npIn p arr = true := by
  unfold npIn
  rw [List.any_eq_true]
  exact ⟨p, h, by simp⟩

/-- Body of both mapping loops. -/
def putBoth {ι : Type} (sa sb : Nat) (f g : ι → Bool) (nr : ι → Nat) (ab : List Nat × List Nat) (x : ι) :
    Except String (List Nat × List Nat) := do
  let a ← putIf (f x) sa ab.1 (nr x)
  let b ← putIf (g x) sb ab.2 (nr x)
  return (a, b)

theorem putBoth_fold {ι : Type} (sa sb : Nat) (f g : ι → Bool) (nr : ι → Nat) :
    ∀ (xs : List ι) (a b : List Nat), a.length ≤ sa → b.length ≤ sb →
      xs.foldlM (putBoth sa sb f g nr) (a, b) =
        if a.length + (xs.filter f).length ≤ sa ∧ b.length + (xs.filter g).length ≤ sb then
          .ok (a ++ (xs.filter f).map nr, b ++ (xs.filter g).map nr) else .error "IndexError"
  | [], a, b, ha, hb => by
    simp [ha, hb]; rfl
  | x :: xs, a, b, ha, hb => by
    rw [List.foldlM_cons]
    have hput : ∀ (s : Nat) (c : List Nat) (t : Bool), c.length ≤ s →
        putIf t s c (nr x) =
          if c.length + (if t then 1 else 0) ≤ s then (.ok (c ++ if t then [nr x] else []) : Except String _)
          else .error "IndexError" := by
      intro s c t hc
      cases t
      · simp [hc, putIf]
      · unfold putIf put
        simp only [if_true, Nat.succ_le_iff]
    have hlen : ∀ (h : ι → Bool), ((x :: xs).filter h).length = (if h x then 1 else 0) + (xs.filter h).length := by
      intro h
      rw [List.filter_cons]
      cases h x <;> simp [Nat.add_comm]
    have hmap : ∀ (h : ι → Bool), ((x :: xs).filter h).map nr =
        (if h x then [nr x] else []) ++ (xs.filter h).map nr := by
      intro h
      rw [List.filter_cons]
      cases h x <;> simp
    have hl2 : ∀ (t : Bool), (if t then [nr x] else []).length = if t then 1 else 0 := by
      intro t; cases t <;> rfl
    unfold putBoth
    rw [hput sa a (f x) ha, hput sb b (g x) hb, hlen f, hlen g, hmap f, hmap g]
    by_cases h1 : a.length + (if f x then 1 else 0) ≤ sa
    · rw [if_pos h1]
      by_cases h2 : b.length + (if g x then 1 else 0) ≤ sb
      · rw [if_pos h2]
        show xs.foldlM (putBoth sa sb f g nr) (a ++ _, b ++ _) = _
        rw [putBoth_fold sa sb f g nr xs _ _ (by rw [List.length_append, hl2]; exact h1)
          (by rw [List.length_append, hl2]; exact h2)]
        simp only [List.length_append, hl2, List.append_assoc, Nat.add_assoc]
      · rw [if_neg h2]
        show Except.error _ = _
        rw [if_neg]
        omega
    · rw [if_neg h1]
      show Except.error _ = _
      rw [if_neg]
      omega

theorem mapAll_eq (inn out pts : List (K × K)) :
    mapAll inn out pts = (pts.zipIdx.foldlM
      (putBoth inn.length out.length (fun e => npIn e.1 inn) (fun e => npIn e.1 out) (·.2)) ([], [])).bind
        fun r => .ok (pad inn.length r.1, pad out.length r.2) := rfl

theorem mapNew_eq (inn out pts : List (K × K)) :
    mapNew inn out pts = (pts.zipIdx.foldlM
      (putBoth inn.length out.length (fun e => npIn e.1 inn) (fun e => !npIn e.1 inn && npIn e.1 out) (·.2))
        ([], [])).bind fun r => .ok (pad inn.length r.1, pad out.length r.2) := by
  have : (fun (ab : List Nat × List Nat) (pi : (K × K) × Nat) =>
      (if npIn pi.1 inn then do
        let a ← put inn.length ab.1 pi.2
        return (a, ab.2)
      else if npIn pi.1 out then do
        let b ← put out.length ab.2 pi.2
        return (ab.1, b)
      else return ab : Except String (List Nat × List Nat))) =
      putBoth inn.length out.length (fun e => npIn e.1 inn) (fun e => !npIn e.1 inn && npIn e.1 out) (·.2) := by
    funext ab pi
    unfold putBoth
    dsimp only
    generalize npIn pi.1 inn = x
    generalize npIn pi.1 out = y
    cases x <;> cases y <;> simp only [putIf, Bool.not_true, Bool.not_false, Bool.and_true, Bool.and_false,
      Bool.true_and, Bool.false_and, if_true, if_false, Bool.false_eq_true] <;> rfl
  unfold mapNew
  rw [this]
  rfl

/-- If an array of the size of the elements with property `f` suffices for those with the weaker
property `h`, they are the same. -/
theorem filter_eq_of_length {α : Type} {f h : α → Bool} {xs : List α} (hi : ∀ x ∈ xs, f x = true → h x = true)
    (hl : (xs.filter h).length ≤ (xs.filter f).length) : xs.filter h = xs.filter f := by
  have hsub : (xs.filter f).Sublist (xs.filter h) := by
    have : xs.filter f = (xs.filter h).filter f := by
      rw [List.filter_filter]
      refine List.filter_congr fun x hx => ?_
      cases hf : f x
      · simp
      · simp [hi x hx hf]
    rw [this]
    exact List.filter_sublist
  exact (hsub.eq_of_length_le hl).symm

theorem length_zipIdx_filter {α : Type} (f : α → Bool) (xs : List α) :
    (xs.zipIdx.filter fun e => f e.1).length = (xs.filter f).length := by
  have := length_positions f xs
  unfold positions at this
  rwa [List.length_map] at this

theorem pad_full {n : Nat} {a : List Nat} (h : a.length = n) : pad n a = a := by
  unfold pad
  rw [h, Nat.sub_self]
  simp

theorem mem_fst_zipIdx {α : Type} {xs : List α} {e : α × Nat} (h : e ∈ xs.zipIdx) : e.1 ∈ xs := by
  obtain ⟨hk, he⟩ := List.mem_zipIdx' h
  rw [he]
  exact List.getElem_mem hk

/-- C79.  If the loops over the unknowns raise no exception, the mapping of the inner (outer) unknowns
lists exactly the positions of the inner (outer) unknowns, in order. -/
theorem C79_all {f g : K × K → Bool} {pts : List (K × K)} {a b : List Nat}
    (h : mapAll (pts.filter f) (pts.filter g) pts = .ok (a, b)) :
    a = positions f pts ∧ b = positions g pts := by
  rw [mapAll_eq, putBoth_fold _ _ _ _ _ _ _ _ (Nat.zero_le _) (Nat.zero_le _)] at h
  split at h
  · rename_i hc
    rw [List.length_nil, Nat.zero_add, Nat.zero_add, ← length_zipIdx_filter f pts,
      ← length_zipIdx_filter g pts] at hc
    have h1 := filter_eq_of_length (xs := pts.zipIdx) (f := fun e => f e.1)
      (h := fun e => npIn e.1 (pts.filter f))
      (fun e he hf => npIn_self (List.mem_filter.2 ⟨mem_fst_zipIdx he, hf⟩)) hc.1
    have h2 := filter_eq_of_length (xs := pts.zipIdx) (f := fun e => g e.1)
      (h := fun e => npIn e.1 (pts.filter g))
      (fun e he hf => npIn_self (List.mem_filter.2 ⟨mem_fst_zipIdx he, hf⟩)) hc.2
    rw [h1, h2] at h
    cases h
    exact ⟨pad_full (length_positions f pts), pad_full (length_positions g pts)⟩
  · cases h

/-- C79.  The same for the unknowns that are new on the finer mesh. -/
theorem C79_new {f g : K × K → Bool} {pts : List (K × K)} {a b : List Nat}
    (hfg : ∀ p ∈ pts, g p = true → f p = false)
    (h : mapNew (pts.filter f) (pts.filter g) pts = .ok (a, b)) :
    a = positions f pts ∧ b = positions g pts := by
  rw [mapNew_eq, putBoth_fold _ _ _ _ _ _ _ _ (Nat.zero_le _) (Nat.zero_le _)] at h
  split at h
  · rename_i hc
    rw [List.length_nil, Nat.zero_add, Nat.zero_add, ← length_zipIdx_filter f pts,
      ← length_zipIdx_filter g pts] at hc
    have h1 := filter_eq_of_length (xs := pts.zipIdx) (f := fun e => f e.1)
      (h := fun e => npIn e.1 (pts.filter f))
      (fun e he hf => npIn_self (List.mem_filter.2 ⟨mem_fst_zipIdx he, hf⟩)) hc.1
    have h3 : ∀ e ∈ pts.zipIdx, npIn e.1 (pts.filter f) = true → f e.1 = true := by
      intro e he hn
      have : e ∈ pts.zipIdx.filter fun e => npIn e.1 (pts.filter f) := List.mem_filter.2 ⟨he, hn⟩
      rw [h1] at this
      exact (List.mem_filter.1 this).2
    have h2 := filter_eq_of_length (xs := pts.zipIdx) (f := fun e => g e.1)
      (h := fun e => !npIn e.1 (pts.filter f) && npIn e.1 (pts.filter g))
      (fun e he hg => by
        have hp := mem_fst_zipIdx he
        rw [Bool.and_eq_true]
        refine ⟨?_, npIn_self (List.mem_filter.2 ⟨hp, hg⟩)⟩
        cases hn : npIn e.1 (pts.filter f)
        · rfl
        · have := h3 e he hn
          rw [hfg e.1 hp hg] at this
          cases this) hc.2
    rw [h1, h2] at h
    cases h
    exact ⟨pad_full (length_positions f pts), pad_full (length_positions g pts)⟩
  · cases h

/-- C79.  The loop over all unknowns raises an `IndexError` exactly if a point outside one of the two
regions shares a coordinate with a point of that region. -/
theorem C79_raises (f g : K × K → Bool) (pts : List (K × K)) :
    mapAll (pts.filter f) (pts.filter g) pts = .error "IndexError" ↔
      ∃ p ∈ pts, ∃ q ∈ pts, (q.1 = p.1 ∨ q.2 = p.2) ∧
        (f p = false ∧ f q = true ∨ g p = false ∧ g q = true) := by
  have key : ∀ (f : K × K → Bool), (pts.zipIdx.filter fun e => npIn e.1 (pts.filter f)).length ≤
      (pts.filter f).length ↔ ∀ p ∈ pts, ∀ q ∈ pts, (q.1 = p.1 ∨ q.2 = p.2) → f q = true → f p = true := by
    intro f
    constructor
    · intro h p hp q hq hpq hf
      rw [← length_zipIdx_filter f pts] at h
      have h1 := filter_eq_of_length (xs := pts.zipIdx) (f := fun e => f e.1)
        (h := fun e => npIn e.1 (pts.filter f))
        (fun e he hf => npIn_self (List.mem_filter.2 ⟨mem_fst_zipIdx he, hf⟩)) h
      obtain ⟨k, hk, rfl⟩ := List.getElem_of_mem hp
      have hm : (pts[k], k) ∈ pts.zipIdx := by
        rw [List.mem_zipIdx_iff_getElem?]
        exact List.getElem?_eq_getElem hk
      have : (pts[k], k) ∈ pts.zipIdx.filter fun e => npIn e.1 (pts.filter f) := by
        refine List.mem_filter.2 ⟨hm, ?_⟩
        unfold npIn
        rw [List.any_eq_true]
        refine ⟨q, List.mem_filter.2 ⟨hq, hf⟩, ?_⟩
        rcases hpq with e | e <;> simp [e]
      rw [h1] at this
      exact (List.mem_filter.1 this).2
    · intro h
      rw [← length_zipIdx_filter f pts]
      refine Nat.le_of_eq (congrArg _ (List.filter_congr fun e he => ?_))
      have hp := mem_fst_zipIdx he
      rw [Bool.eq_iff_iff]
      constructor
      · intro hn
        unfold npIn at hn
        rw [List.any_eq_true] at hn
        obtain ⟨q, hq, hqe⟩ := hn
        obtain ⟨hq1, hq2⟩ := List.mem_filter.1 hq
        refine h e.1 hp q hq1 ?_ hq2
        rw [Bool.or_eq_true, decide_eq_true_iff, decide_eq_true_iff] at hqe
        exact hqe
      · exact fun hf => npIn_self (List.mem_filter.2 ⟨hp, hf⟩)
  rw [mapAll_eq, putBoth_fold _ _ _ _ _ _ _ _ (Nat.zero_le _) (Nat.zero_le _)]
  simp only [List.length_nil, Nat.zero_add, key]
  constructor
  · intro h
    split at h
    · cases h
    · rename_i hn
      rw [not_and_or] at hn
      rcases hn with hn | hn <;> push Not at hn <;> obtain ⟨p, hp, q, hq, he, h1, h2⟩ := hn
      · exact ⟨p, hp, q, hq, he, .inl ⟨by simpa using h2, h1⟩⟩
      · exact ⟨p, hp, q, hq, he, .inr ⟨by simpa using h2, h1⟩⟩
  · rintro ⟨p, hp, q, hq, he, h⟩
    rw [if_neg]
    · rfl
    · rintro ⟨h1, h2⟩
      rcases h with ⟨h3, h4⟩ | ⟨h3, h4⟩
      · rw [h1 p hp q hq he h4] at h3; cases h3
      · rw [h2 p hp q hq he h4] at h3; cases h3

/-- C79, whole computation: if an inner unknown and one that is not inner share a coordinate, the computation of the
grid information raises an `IndexError` (all nodes being known). -/
theorem C79_compute_raises {G : Geo K} {cu uc : List (String × String)} {b : List String}
    {nodes : List (String × (K × K))} {U B : List (K × K)}
    (hU : uc.mapM (fun e => dictGet nodes e.2) = .ok U) (hB : b.mapM (fun b => dictGet nodes b) = .ok B)
    {p q : K × K} (hp : p ∈ U) (hq : q ∈ U) (hpi : G.inner p = true) (hqi : G.inner q = false)
    (hpq : q.1 = p.1 ∨ q.2 = p.2) (n : Nat) :
    computeData G cu uc b nodes n = .error "IndexError" := by
  have h2 := (C79_raises G.inner G.outer U).2 ⟨q, hq, p, hp,
    by rcases hpq with h | h <;> simp [h], .inl ⟨hqi, hpi⟩⟩
  unfold computeData
  simp only [hU, hB, bind, Except.bind]
  cases e : mapNew ((U.drop n).filter G.inner) ((U.drop n).filter G.outer) (U.drop n) with
  | error m =>
    rw [mapNew_eq, putBoth_fold _ _ _ _ _ _ _ _ (Nat.zero_le _) (Nat.zero_le _)] at e
    split at e
    · cases e
    · cases e; rfl
  | ok mn => simp only [h2]

/-- Two regions with no common coordinate, and two with one. -/
example : mapAll [((1 : ℚ), (2 : ℚ))] [(6, 7)] [(1, 2), (6, 7)] = .ok ([0], [1]) ∧
    mapAll [((1 : ℚ), (0 : ℚ))] [(6, 0)] [(1, 0), (6, 0)] = .error "IndexError" ∧
    mapNew [((1 : ℚ), (2 : ℚ))] [(6, 7)] [(1, 2), (6, 7)] = .ok ([0], [1]) := by
  refine ⟨?_, ?_, ?_⟩ <;> rfl

/-! ### Interpolation -/

variable [IsStrictOrderedRing K]

/-- The steps of a successful interpolation. -/
theorem interpolation_parts {nan : K} {d : Data K} {u w : Vec K} (h : interpolation nan d u = .ok w) :
    ∃ x1 x2 x3 x4 y1 y2, takeIdx u.middle d.mapInner = .ok x1 ∧
      meshTransfer nan x1 d.vtxInner d.wtsInner d.addInner = .ok x2 ∧
      takeIdx u.middle d.mapOuter = .ok x3 ∧
      meshTransfer nan x3 d.vtxOuter d.wtsOuter d.addOuter = .ok x4 ∧
      (u.middle.length ≤ d.sizeStop - d.sizeStart ∨ u.middle.length = 1) ∧
      scatter ((u.middle ++ (List.replicate (d.sizeStop - d.sizeStart) (0 : K)).drop u.middle.length).take
        (d.sizeStop - d.sizeStart)) d.mapInnerNew x2 = .ok y1 ∧
      scatter y1 d.mapOuterNew x4 = .ok y2 ∧ w.middle = u.middle ++ y2 := by
  unfold interpolation at h
  simp only [List.length_replicate] at h
  by_cases h0 : d.sizeStop < d.sizeStart
  · rw [if_pos h0] at h; cases h
  rw [if_neg h0] at h
  cases e1 : takeIdx u.middle d.mapInner with
  | error e => rw [e1] at h; cases h
  | ok x1 =>
    rw [e1] at h
    cases e2 : meshTransfer nan x1 d.vtxInner d.wtsInner d.addInner with
    | error e => simp only [bind, Except.bind, e2] at h; cases h
    | ok x2 =>
      cases e3 : takeIdx u.middle d.mapOuter with
      | error e => simp only [bind, Except.bind, e2, e3] at h; cases h
      | ok x3 =>
        cases e4 : meshTransfer nan x3 d.vtxOuter d.wtsOuter d.addOuter with
        | error e => simp only [bind, Except.bind, e2, e3, e4] at h; cases h
        | ok x4 =>
          simp only [bind, Except.bind, e2, e3, e4] at h
          by_cases h5 : d.sizeStop - d.sizeStart < u.middle.length ∧ u.middle.length ≠ 1
          · rw [if_pos h5] at h; cases h
          rw [if_neg h5] at h
          simp only [pure, Except.pure] at h
          split at h
          · cases h
          rename_i y1 hy1
          split at h
          · cases h
          rename_i y2 hy2
          injection h with h
          exact ⟨x1, x2, x3, x4, y1, y2, rfl, e2, rfl, e4, by omega, hy1, hy2, by rw [← h]⟩

theorem takeIdx_positions {f : K × K → Bool} (U : List K) : ∀ (pts : List (K × K)) (us : List K) (n : Nat),
    us.length = pts.length → (∀ k x, us[k]? = some x → U[n + k]? = some x) →
    takeIdx U (((pts.zipIdx n).filter fun e => f e.1).map (·.2)) =
      .ok (((pts.zip us).filter fun e => f e.1).map (·.2))
  | [], [], _, _, _ => rfl
  | p :: pts, x :: us, n, hl, hU => by
    have ih := takeIdx_positions (f := f) U pts us (n + 1) (by simpa using hl) fun k y hy => by
      have := hU (k + 1) y (by simpa using hy)
      rwa [show n + 1 + k = n + (k + 1) by omega]
    rw [List.zipIdx_cons, List.zip_cons_cons, List.filter_cons, List.filter_cons]
    have h0 : U[n]? = some x := hU 0 x rfl
    cases hf : f p
    · simp only [Bool.false_eq_true, if_false]; exact ih
    · simp only [if_true, List.map_cons]
      unfold takeIdx at ih ⊢
      rw [List.mapM_cons, h0, ih]
      rfl
  | [], _ :: _, _, hl, _ => by simp at hl
  | _ :: _, [], _, hl, _ => by simp at hl

/-- Nodes of a region of the coarse mesh with their values: the vector's values at the unknowns, zero
at the nodes on the boundary. -/
def regionNodes (f : K × K → Bool) (unknown bnd : List (K × K)) (u : List K) : List ((K × K) × K) :=
  (unknown.zip u ++ bnd.map fun p => (p, 0)).filter fun e => f e.1

theorem regionNodes_fst (f : K × K → Bool) (unknown bnd : List (K × K)) (u : List K)
    (h : u.length = unknown.length) :
    (regionNodes f unknown bnd u).map (·.1) = (unknown ++ bnd).filter f := by
  unfold regionNodes
  have e : (unknown.zip u ++ bnd.map fun p => (p, (0 : K))).map (·.1) = unknown ++ bnd := by
    rw [List.map_append, List.map_map]
    congr 1
    · exact List.map_fst_zip (by omega)
    · rw [show ((fun x : (K × K) × K => x.1) ∘ fun p => (p, (0 : K))) = id from rfl, List.map_id]
  conv_rhs => rw [← e, List.filter_map]
  rfl

theorem regionNodes_snd (f : K × K → Bool) (unknown bnd : List (K × K)) (u : List K)
    (h : u.length = unknown.length) :
    (regionNodes f unknown bnd u).map (·.2) =
      ((unknown.zip u).filter fun e => f e.1).map (·.2) ++
        List.replicate (((unknown ++ bnd).filter f).length - (unknown.filter f).length) 0 := by
  unfold regionNodes
  rw [List.filter_append, List.map_append, List.filter_append, List.length_append, Nat.add_sub_cancel_left]
  congr 1
  rw [List.filter_map, List.map_map]
  rw [List.eq_replicate_iff]
  refine ⟨by rw [List.length_map]; rfl, fun b hb => ?_⟩
  obtain ⟨p, -, rfl⟩ := List.mem_map.1 hb
  rfl

/-- The value computed for one point of the finer mesh. -/
def valueAt (D : Tri K) (nodes : List ((K × K) × K)) (p : K × K) : K :=
  let w := weights D (nodes.map (·.1)) p
  (List.zipWith (· * ·) (w.1.map fun v => (nodes.map (·.2)).getD v 0) w.2).sum

theorem clip_nonneg (w : K) : ¬ clip w < 0 := by
  unfold clip
  split
  · exact lt_irrefl 0
  · assumption

theorem takeIdx_ok {xs ys : List K} {idx : List Nat} (h : takeIdx xs idx = .ok ys) :
    ys = idx.map fun i => xs.getD i 0 := by
  have := mapM_ok h
  clear h
  induction this with
  | nil => rfl
  | @cons i y idx ys hi _ ih =>
    rw [List.map_cons, ← ih]
    congr 1
    rw [List.getD_eq_getElem?_getD]
    cases hx : xs[i]? with
    | none => rw [hx] at hi; cases hi
    | some x => rw [hx] at hi; cases hi; rfl

theorem meshTransfer_ok {nan : K} {vals : List K} {dif : Nat} {D : Tri K} {nodes : List ((K × K) × K)}
    (hn : nodes.map (·.2) = vals ++ List.replicate dif 0) {pts : List (K × K)} {out : List K}
    (h : meshTransfer nan vals ((pts.map (weights D (nodes.map (·.1)))).map (·.1))
      ((pts.map (weights D (nodes.map (·.1)))).map (·.2)) dif = .ok out) :
    out = pts.map (valueAt D nodes) := by
  unfold meshTransfer at h
  have hz : ((pts.map (weights D (nodes.map (·.1)))).map (·.1)).zip
      ((pts.map (weights D (nodes.map (·.1)))).map (·.2)) = pts.map (weights D (nodes.map (·.1))) := by
    rw [List.zip_map']
    simp
  rw [hz, ← hn] at h
  have := mapM_ok h
  clear h hz
  rw [List.forall₂_map_left_iff] at this
  induction this with
  | nil => rfl
  | @cons p y pts ys hp _ ih =>
    rw [List.map_cons, ← ih]
    congr 1
    cases ht : takeIdx (nodes.map (·.2)) (weights D (nodes.map (·.1)) p).1 with
    | error e => rw [ht] at hp; cases hp
    | ok xs =>
      rw [ht] at hp
      have hnn : ((weights D (nodes.map (·.1)) p).2.any fun w => decide (w < 0)) = false := by
        rw [List.any_eq_false]
        intro w hw
        rw [decide_eq_true_iff]
        unfold weights at hw
        simp only [List.mem_cons, List.not_mem_nil, or_false] at hw
        rcases hw with rfl | rfl | rfl <;> exact clip_nonneg _
      simp only [bind, Except.bind, pure, Except.pure, hnn, Bool.false_eq_true, if_false] at hp
      injection hp with hp
      rw [← hp, takeIdx_ok ht]
      rfl

theorem fold_set (f : K × K → Bool) (h : K × K → K) (i : Nat) : ∀ (pts : List (K × K)) (n : Nat) (xs : List K),
    n + pts.length ≤ xs.length →
    (((((pts.zipIdx n).filter fun e => f e.1).map fun e => (e.2, h e.1)).foldl
      (fun xs iv => xs.set iv.1 iv.2) xs)[i]? : Option K) =
      if n ≤ i then match pts[i - n]? with
        | some p => if f p then some (h p) else xs[i]?
        | none => xs[i]?
      else xs[i]?
  | [], n, xs, _ => by simp
  | p :: pts, n, xs, hl => by
    rw [List.zipIdx_cons, List.filter_cons]
    rw [List.length_cons] at hl
    have key : ∀ ys : List K, ys.length = xs.length →
        (n ≠ i → ys[i]? = xs[i]?) → (n = i → ys[i]? = if f p then some (h p) else xs[i]?) →
        (((((pts.zipIdx (n + 1)).filter fun e => f e.1).map fun e => (e.2, h e.1)).foldl
          (fun xs iv => xs.set iv.1 iv.2) ys)[i]? : Option K) =
        if n ≤ i then match (p :: pts)[i - n]? with
          | some p => if f p then some (h p) else xs[i]?
          | none => xs[i]?
        else xs[i]? := by
      intro ys hy h1 h2
      rw [fold_set f h i pts (n + 1) ys (by omega)]
      rcases Nat.lt_trichotomy n i with hi | hi | hi
      · rw [if_pos (by omega), if_pos (by omega), h1 (by omega)]
        obtain ⟨k, rfl⟩ : ∃ k, i = n + 1 + k := ⟨i - (n + 1), by omega⟩
        rw [show n + 1 + k - (n + 1) = k by omega, show n + 1 + k - n = k + 1 by omega,
          List.getElem?_cons_succ]
      · subst hi
        rw [if_neg (by omega), if_pos (by omega), h2 rfl, Nat.sub_self]
        rfl
      · rw [if_neg (by omega), if_neg (by omega), h1 (by omega)]
    cases hf : f p
    · simp only [Bool.false_eq_true, if_false]
      exact key xs rfl (fun _ => rfl) fun _ => by simp [hf]
    · simp only [if_true, List.map_cons, List.foldl_cons]
      refine key (xs.set n (h p)) (List.length_set) (fun hne => ?_) fun he => ?_
      · rw [List.getElem?_set_ne hne]
      · subst he
        rw [hf, if_pos rfl, List.getElem?_set_self (by omega)]

theorem zip_positions (f : K × K → Bool) (h : K × K → K) (pts : List (K × K)) :
    (positions f pts).zip ((pts.filter f).map h) =
      (pts.zipIdx.filter fun e => f e.1).map fun e => (e.2, h e.1) := by
  unfold positions
  have : ∀ n, (((pts.zipIdx n).filter fun e => f e.1).map (·.2)).zip ((pts.filter f).map h) =
      ((pts.zipIdx n).filter fun e => f e.1).map fun e => (e.2, h e.1) := by
    induction pts with
    | nil => intro n; rfl
    | cons p pts ih =>
      intro n
      rw [List.zipIdx_cons, List.filter_cons, List.filter_cons]
      cases hf : f p
      · simp only [Bool.false_eq_true, if_false]; exact ih _
      · simp only [if_true, List.map_cons, List.zip_cons_cons, ih]
  exact this 0

theorem scatter_positions {f : K × K → Bool} {h : K × K → K} {pts : List (K × K)} {xs ys : List K}
    (hl : pts.length ≤ xs.length)
    (hs : scatter xs (positions f pts) ((pts.filter f).map h) = .ok ys) (i : Nat) :
    ys[i]? = match pts[i]? with
        | some p => if f p then some (h p) else xs[i]?
        | none => xs[i]? := by
  unfold scatter at hs
  split at hs
  · cases hs
  split at hs
  · cases hs
  injection hs with hs
  rw [← hs, zip_positions, fold_set f h i pts 0 xs (by omega), if_pos (Nat.zero_le _)]
  rfl

/-- What `compute_data` returns. -/
theorem computeData_ok {G : Geo K} (he : G.e1 ≤ G.e2) {cu uc : List (String × String)} {b : List String}
    {nodes : List (String × (K × K))} {n : Nat} {c : Info K} (h : computeData G cu uc b nodes n = .ok c) :
    c.nCor = cu.length ∧ c.unknown.length = uc.length ∧
    (∃ bnd, b.mapM (fun b => dictGet nodes b) = .ok bnd ∧ c.unknownCom = c.unknown ++ bnd) ∧
    uc.mapM (fun e => dictGet nodes e.2) = .ok c.unknown ∧
    c.unknownNew = c.unknown.drop n ∧
    c.mapInner = positions G.inner c.unknown ∧ c.mapOuter = positions G.outer c.unknown ∧
    c.mapInnerNew = positions G.inner c.unknownNew ∧ c.mapOuterNew = positions G.outer c.unknownNew := by
  unfold computeData at h
  cases e1 : uc.mapM fun e => dictGet nodes e.2 with
  | error e => rw [e1] at h; cases h
  | ok unk =>
    cases e2 : b.mapM fun b => dictGet nodes b with
    | error e => simp only [bind, Except.bind, e1, e2] at h; cases h
    | ok bnd =>
      simp only [bind, Except.bind, e1, e2] at h
      cases e3 : mapNew ((unk.drop n).filter G.inner) ((unk.drop n).filter G.outer) (unk.drop n) with
      | error e => rw [e3] at h; cases h
      | ok mn =>
        rw [e3] at h
        cases e4 : mapAll (unk.filter G.inner) (unk.filter G.outer) unk with
        | error e => simp only [e4] at h; cases h
        | ok ma =>
          simp only [e4, pure, Except.pure] at h
          cases h
          obtain ⟨h1, h2⟩ := C79_all (a := ma.1) (b := ma.2) e4
          obtain ⟨h3, h4⟩ := C79_new (a := mn.1) (b := mn.2) (fun p _ hp => by
            unfold Geo.outer at hp
            unfold Geo.inner
            rw [decide_eq_true_iff] at hp
            rw [decide_eq_false_iff_not]
            intro hc
            linarith) e3
          exact ⟨rfl, (mapM_ok e1).length_eq.symm, ⟨bnd, rfl, rfl⟩, rfl, rfl, h1, h2, h3, h4⟩

/-- Value computed for each new unknown of the finer mesh. -/
theorem interpolation_values {G : Geo K} (he : G.e1 ≤ G.e2)
    {cu uc cu' uc' : List (String × String)}
    {b b' : List String} {nodes nodes' : List (String × (K × K))} {n' : Nat} {c f : Info K}
    (hc : computeData G cu uc b nodes 0 = .ok c) (hf : computeData G cu' uc' b' nodes' n' = .ok f)
    {bnd : List (K × K)} (hb : b.mapM (fun b => dictGet nodes b) = .ok bnd)
    (hn : n' = cu.length) (hl' : cu'.length = uc'.length) {nan : K} {u w : Vec K}
    {del : List (K × K) → Tri K}
    (hu : u.middle.length = c.unknown.length)
    (h : interpolation nan (factors G del c f) u = .ok w) {i : Nat} {p : K × K}
    (hp : f.unknown[n' + i]? = some p) :
    w.middle[u.middle.length + i]? =
      if G.inner p then
        some (valueAt (del (c.unknownCom.filter G.inner)) (regionNodes G.inner c.unknown bnd u.middle) p)
      else if G.outer p then
        some (valueAt (del (c.unknownCom.filter G.outer)) (regionNodes G.outer c.unknown bnd u.middle) p)
      else some (u.middle.getD i 0) := by
  obtain ⟨c1, c2, ⟨bnd', c3, c4⟩, -, -, c6, c7, -, -⟩ := computeData_ok he hc
  obtain ⟨f1, f2, -, -, f5, -, -, f8, f9⟩ := computeData_ok he hf
  rw [hb] at c3
  cases c3
  obtain ⟨x1, x2, x3, x4, y1, y2, e1, e2, e3, e4, e5, e6, e7, e8⟩ := interpolation_parts h
  have hi : i < f.unknownNew.length := by
    have := (List.getElem?_eq_some_iff.1 hp).1
    rw [f5, List.length_drop]; omega
  have hpi : f.unknownNew[i]? = some p := by rw [f5, List.getElem?_drop]; exact hp
  have hsize : (factors G del c f).sizeStop - (factors G del c f).sizeStart = f.unknownNew.length := by
    show f.nCor - c.nCor = _
    rw [f5, List.length_drop, f1, c1, f2, hn, hl']
  rw [hsize] at e5 e6
  -- values of the two regions
  have part : ∀ (g : K × K → Bool) (m : List Nat) (x y : List K), m = positions g c.unknown →
      takeIdx u.middle m = .ok x →
      meshTransfer nan x
        (((f.unknownNew.filter g).map (weights (del (c.unknownCom.filter g)) (c.unknownCom.filter g))).map (·.1))
        (((f.unknownNew.filter g).map (weights (del (c.unknownCom.filter g)) (c.unknownCom.filter g))).map (·.2))
        ((c.unknownCom.filter g).length - (c.unknown.filter g).length) = .ok y →
      y = (f.unknownNew.filter g).map
        (valueAt (del (c.unknownCom.filter g)) (regionNodes g c.unknown bnd u.middle)) := by
    intro g m x y hm hx hy
    have hx' := takeIdx_positions (f := g) u.middle c.unknown u.middle 0 hu (fun k z hz => by rwa [Nat.zero_add])
    rw [hm] at hx
    unfold positions at hx
    rw [hx'] at hx
    cases hx
    have hfst := regionNodes_fst g c.unknown bnd u.middle hu
    have hsnd := regionNodes_snd g c.unknown bnd u.middle hu
    rw [← c4] at hfst hsnd
    rw [← hfst] at hy ⊢
    refine meshTransfer_ok ?_ hy
    rw [hsnd, hfst]
  have v2 := part G.inner _ _ _ c6 e1 e2
  have v4 := part G.outer _ _ _ c7 e3 e4
  have e6' : scatter ((u.middle ++ (List.replicate f.unknownNew.length (0 : K)).drop u.middle.length).take
    f.unknownNew.length) (positions G.inner f.unknownNew) x2 = .ok y1 := by rw [← f8]; exact e6
  have e7' : scatter y1 (positions G.outer f.unknownNew) x4 = .ok y2 := by rw [← f9]; exact e7
  rw [v2] at e6'
  rw [v4] at e7'
  have hlen0 : f.unknownNew.length ≤ ((u.middle ++ (List.replicate f.unknownNew.length (0 : K)).drop
      u.middle.length).take f.unknownNew.length).length := by
    simp only [List.length_take, List.length_append, List.length_drop, List.length_replicate]
    omega
  have hlen1 : f.unknownNew.length ≤ y1.length := by
    rw [Machine.scatter_length e6']; exact hlen0
  have r1 := scatter_positions hlen0 e6' i
  have r2 := scatter_positions hlen1 e7' i
  rw [hpi] at r1 r2
  dsimp only at r1 r2
  rw [e8, List.getElem?_append_right (Nat.le_add_right _ _), Nat.add_sub_cancel_left, r2, r1]
  have hdis : G.inner p = true → G.outer p = false := by
    unfold Geo.inner Geo.outer
    rw [decide_eq_true_iff, decide_eq_false_iff_not]
    intro h1 h3
    linarith
  cases hin : G.inner p
  · cases hout : G.outer p
    · simp only [Bool.false_eq_true, if_false]
      rw [List.getElem?_take_of_lt hi, List.getElem?_append, List.getD_eq_getElem?_getD]
      by_cases hiu : i < u.middle.length
      · rw [if_pos hiu, List.getElem?_eq_getElem hiu]; rfl
      · rw [if_neg hiu, List.getElem?_drop, List.getElem?_replicate, if_pos (by omega),
          List.getElem?_eq_none (by omega)]
        rfl
    · simp
  · rw [hdis hin]; simp

/-- C80, given weights: a point with a negative weight gets the fill value, every other point the weighted
sum of the values at its vertices (followed by zeros for nodes with prescribed values). -/
theorem C80_weights {nan : K} {vals : List K} {vtx : List (List Nat)} {wts : List (List K)} {dif : Nat}
    {out : List K} (h : meshTransfer nan vals vtx wts dif = .ok out) (hl : vtx.length = wts.length) (i : Nat)
    (v : List Nat) (w : List K) (hv : vtx[i]? = some v) (hw : wts[i]? = some w) :
    ((∃ x ∈ w, x < 0) → out[i]? = some nan) ∧
    ((∀ x ∈ w, 0 ≤ x) → out[i]? = some (List.zipWith (· * ·)
      (v.map fun k => (vals ++ List.replicate dif 0).getD k 0) w).sum) := by
  unfold meshTransfer at h
  have hf := mapM_ok h
  have hz : (vtx.zip wts)[i]? = some (v, w) := by
    rw [List.getElem?_zip_eq_some]; exact ⟨hv, hw⟩
  have hi := (List.getElem?_eq_some_iff.1 hz).1
  have ho : i < out.length := by rw [← hf.length_eq]; exact hi
  have hp := hf.get hi ho
  simp only [List.get_eq_getElem] at hp
  rw [(List.getElem?_eq_some_iff.1 hz).2] at hp
  dsimp only at hp
  cases ht : takeIdx (vals ++ List.replicate dif 0) v with
  | error e => rw [ht] at hp; cases hp
  | ok xs =>
    rw [ht] at hp
    simp only [bind, Except.bind, pure, Except.pure] at hp
    injection hp with hp
    rw [List.getElem?_eq_getElem ho, ← hp, ← takeIdx_ok ht]
    refine ⟨fun hx => ?_, fun hx => ?_⟩
    · rw [if_pos]
      obtain ⟨x, hm, hlt⟩ := hx
      exact List.any_eq_true.2 ⟨x, hm, by simpa using hlt⟩
    · rw [if_neg]
      rw [Bool.not_eq_true, List.any_eq_false]
      intro x hm
      simpa using hx x hm

example : (meshTransfer (α := ℚ) 99 [1, 2] [[0, 1, 2], [1, 0, 2]] [[1/2, 1/4, 1/4], [1/2, -1/4, 3/4]] 1).toOption =
    some [1, 99] := by
  decide +kernel

/-! ### The file of the unknowns -/

omit [IsStrictOrderedRing K] [Field K] [LinearOrder K] in
theorem dictSet_new {κ β : Type} [DecidableEq κ] : ∀ (d : List (κ × β)) (k : κ) (v : β),
    k ∉ d.map (·.1) → dictSet d k v = d ++ [(k, v)]
  | [], _, _, _ => rfl
  | (k', v') :: d, k, v, h => by
    rw [List.map_cons, List.mem_cons, not_or] at h
    unfold dictSet
    rw [if_neg (fun e => h.1 e.symm), dictSet_new d k v h.2]
    rfl

/-- Rows of the pre-processing file: name of the node, number of the unknown. -/
def rowsOf (content : List Line) : List (String × String) :=
  (Machine.slice content (some 9) (some (-35))).map fun r => (r.getD 1 "", r.getD 4 "")

/-- The value at this node is fixed: it is not an unknown. -/
def fixed (e : String × String) : Bool := e.2 == "0" || e.2 == "-1" || e.2 == "1"

theorem preFile_fold : ∀ (rows : List Line) (cu uc cu' uc' : List (String × String)) (b b' : List String),
    rows.foldlM (fun (d : List (String × String) × List (String × String) × List String) row =>
      match row[1]?, row[4]? with
      | some a, some b =>
        if b ≠ "0" ∧ b ≠ "-1" ∧ b ≠ "1" then
          .ok (dictSet d.1 a b, dictSet d.2.1 b a, d.2.2)
        else .ok (d.1, d.2.1, d.2.2 ++ [a])
      | _, _ => .error "IndexError") (cu, uc, b) = (.ok (cu', uc', b') : Except String _) →
    (cu.map (·.1) ++ ((rows.map fun r => (r.getD 1 "", r.getD 4 "")).filter fun e => !fixed e).map (·.1)).Nodup →
    (uc.map (·.1) ++ ((rows.map fun r => (r.getD 1 "", r.getD 4 "")).filter fun e => !fixed e).map (·.2)).Nodup →
    cu' = cu ++ (rows.map fun r => (r.getD 1 "", r.getD 4 "")).filter (fun e => !fixed e) ∧
    uc' = uc ++ ((rows.map fun r => (r.getD 1 "", r.getD 4 "")).filter (fun e => !fixed e)).map Prod.swap ∧
    b' = b ++ ((rows.map fun r => (r.getD 1 "", r.getD 4 "")).filter fixed).map (·.1)
  | [], cu, uc, cu', uc', b, b', h, _, _ => by
    rw [List.foldlM_nil] at h
    cases h
    simp
  | row :: rows, cu, uc, cu', uc', b, b', h, h1, h2 => by
    rw [List.foldlM_cons] at h
    cases e1 : row[1]? with
    | none => rw [e1] at h; cases h
    | some a =>
      cases e4 : row[4]? with
      | none => rw [e1, e4] at h; cases h
      | some k =>
        have g1 : row.getD 1 "" = a := by rw [List.getD_eq_getElem?_getD, e1]; rfl
        have g4 : row.getD 4 "" = k := by rw [List.getD_eq_getElem?_getD, e4]; rfl
        rw [e1, e4] at h
        dsimp only at h
        rw [List.map_cons, List.filter_cons, g1, g4] at h1 h2
        rw [List.map_cons, List.filter_cons, List.filter_cons, g1, g4]
        by_cases hk : k ≠ "0" ∧ k ≠ "-1" ∧ k ≠ "1"
        · have hfx : fixed (a, k) = false := by
            unfold fixed; simp [hk.1, hk.2.1, hk.2.2]
          rw [if_pos hk] at h
          simp only [hfx, Bool.not_false, if_true, Bool.false_eq_true, if_false, List.map_cons] at *
          have n1 : a ∉ cu.map (·.1) := fun hm =>
            (List.nodup_append.1 h1).2.2 a hm a List.mem_cons_self rfl
          have n2 : k ∉ uc.map (·.1) := fun hm =>
            (List.nodup_append.1 h2).2.2 k hm k List.mem_cons_self rfl
          rw [dictSet_new _ _ _ n1, dictSet_new _ _ _ n2] at h
          obtain ⟨r1, r2, r3⟩ := preFile_fold rows _ _ _ _ _ _ h
            (by simpa [List.append_assoc] using h1) (by simpa [List.append_assoc] using h2)
          refine ⟨by rw [r1, List.append_assoc]; rfl, by rw [r2, List.append_assoc]; rfl, r3⟩
        · have hfx : fixed (a, k) = true := by
            unfold fixed
            by_contra hc
            simp only [Bool.or_eq_true, beq_iff_eq, not_or] at hc
            exact hk ⟨hc.1.1, hc.1.2, hc.2⟩
          rw [if_neg hk] at h
          simp only [hfx, Bool.not_true, if_true, Bool.false_eq_true, if_false, List.map_cons] at *
          obtain ⟨r1, r2, r3⟩ := preFile_fold rows _ _ _ _ _ _ h h1 h2
          exact ⟨r1, r2, by rw [r3, List.append_assoc]; rfl⟩

/-- Contents of the dictionaries and of the list of boundary nodes. -/
theorem preFile_ok {content : List Line} {cu uc : List (String × String)} {b : List String}
    (h : preFile content = .ok (cu, uc, b))
    (h1 : (((rowsOf content).filter fun e => !fixed e).map (·.1)).Nodup)
    (h2 : (((rowsOf content).filter fun e => !fixed e).map (·.2)).Nodup) :
    cu = (rowsOf content).filter (fun e => !fixed e) ∧
    uc = ((rowsOf content).filter (fun e => !fixed e)).map Prod.swap ∧
    b = ((rowsOf content).filter fixed).map (·.1) := by
  have := preFile_fold (Machine.slice content (some 9) (some (-35))) [] [] cu uc [] b h
    (by rw [List.map_nil, List.nil_append]; exact h1) (by rw [List.map_nil, List.nil_append]; exact h2)
  rw [List.nil_append, List.nil_append, List.nil_append] at this
  exact this

/-! ### Interpolation between two meshes -/

theorem bary_eq {a b c p : K × K} {l0 l1 l2 : K}
    (hdet : (a.1 - c.1) * (b.2 - c.2) - (b.1 - c.1) * (a.2 - c.2) ≠ 0)
    (hs : l0 + l1 + l2 = 1) (h1 : p.1 = l0 * a.1 + l1 * b.1 + l2 * c.1)
    (h2 : p.2 = l0 * a.2 + l1 * b.2 + l2 * c.2) : bary a b c p = (l0, l1) := by
  have e2 : l2 = 1 - l0 - l1 := by linear_combination hs
  subst e2
  unfold bary
  refine Prod.ext ?_ ?_
  · show _ / _ = _
    rw [div_eq_iff hdet, h1, h2]; ring
  · show _ / _ = _
    rw [div_eq_iff hdet, h1, h2]; ring

theorem clip_of_nonneg {w : K} (h : 0 ≤ w) : clip w = w := by
  unfold clip; rw [if_neg (not_lt.2 h)]

theorem valueAt_eq {D : Tri K} {nodes : List ((K × K) × K)} {p : K × K} {va vb vc : Nat}
    {A B C : (K × K) × K} {l0 l1 l2 : K} (hv : D.vertices p = (va, vb, vc))
    (hA : nodes[va]? = some A) (hB : nodes[vb]? = some B) (hC : nodes[vc]? = some C)
    (hdet : (A.1.1 - C.1.1) * (B.1.2 - C.1.2) - (B.1.1 - C.1.1) * (A.1.2 - C.1.2) ≠ 0)
    (hs : l0 + l1 + l2 = 1) (h1 : p.1 = l0 * A.1.1 + l1 * B.1.1 + l2 * C.1.1)
    (h2 : p.2 = l0 * A.1.2 + l1 * B.1.2 + l2 * C.1.2) :
    valueAt D nodes p = clip l0 * A.2 + clip l1 * B.2 + clip l2 * C.2 := by
  have g : ∀ (v : Nat) (X : (K × K) × K), nodes[v]? = some X →
      (nodes.map (·.1)).getD v (0, 0) = X.1 ∧ (nodes.map (·.2)).getD v 0 = X.2 := by
    intro v X hX
    rw [List.getD_eq_getElem?_getD, List.getD_eq_getElem?_getD, List.getElem?_map, List.getElem?_map, hX]
    exact ⟨rfl, rfl⟩
  unfold valueAt weights
  rw [hv]
  dsimp only
  rw [(g _ _ hA).1, (g _ _ hB).1, (g _ _ hC).1, bary_eq hdet hs h1 h2]
  simp only [List.map_cons, List.map_nil, List.zipWith_cons_cons, List.zipWith_nil_right, List.sum_cons,
    List.sum_nil]
  rw [(g _ _ hA).2, (g _ _ hB).2, (g _ _ hC).2, show 1 - (l0 + l1) = l2 by linear_combination -hs]
  ring

theorem mapM_of_forall₂ {α γ : Type} {f : α → Except String γ} {xs : List α} {ys : List γ}
    (h : List.Forall₂ (fun x y => f x = .ok y) xs ys) : xs.mapM f = .ok ys := by
  induction h with
  | nil => rfl
  | cons h1 _ ih => rw [List.mapM_cons, h1, ih]; rfl

/-- The value at every new unknown of the finer mesh in terms of the two pairs of files. -/
theorem transfer_values {G : Geo K} (he : G.e1 ≤ G.e2) {float : String → Except String K}
    {del : List (K × K) → Tri K} {preC mshC preF mshF : List Line} {d : Data K}
    (ht : transfer G float del preC mshC preF mshF = .ok d)
    (n1 : (((rowsOf preC).filter fun e => !fixed e).map (·.1)).Nodup)
    (n2 : (((rowsOf preC).filter fun e => !fixed e).map (·.2)).Nodup)
    (n3 : (((rowsOf preF).filter fun e => !fixed e).map (·.1)).Nodup)
    (n4 : (((rowsOf preF).filter fun e => !fixed e).map (·.2)).Nodup)
    {nodesC nodesF : List (String × (K × K))} (hC : getNodes float mshC = .ok nodesC)
    (hF : getNodes float mshF = .ok nodesF) {U B : List (K × K)}
    (hU : List.Forall₂ (fun e p => dictGet nodesC e.1 = .ok p) ((rowsOf preC).filter fun e => !fixed e) U)
    (hB : List.Forall₂ (fun e p => dictGet nodesC e.1 = .ok p) ((rowsOf preC).filter fixed) B)
    {nan : K} {u w : Vec K} (hu : u.middle.length = U.length) (h : interpolation nan d u = .ok w) :
    (∀ i, i < U.length → w.middle[i]? = u.middle[i]?) ∧
    ∀ i e p, ((rowsOf preF).filter fun e => !fixed e)[U.length + i]? = some e → dictGet nodesF e.1 = .ok p →
      w.middle[U.length + i]? =
        if G.inner p then
          some (valueAt (del ((U ++ B).filter G.inner)) (regionNodes G.inner U B u.middle) p)
        else if G.outer p then
          some (valueAt (del ((U ++ B).filter G.outer)) (regionNodes G.outer U B u.middle) p)
        else some (u.middle.getD i 0) := by
  unfold transfer at ht
  cases e1 : preFile preC with
  | error e => rw [e1] at ht; cases ht
  | ok tC =>
    obtain ⟨cu, uc, b⟩ := tC
    cases e2 : preFile preF with
    | error e =>
      simp only [bind, Except.bind, e1, e2, hC] at ht
      split at ht <;> cases ht
    | ok tF =>
      obtain ⟨cu', uc', b'⟩ := tF
      simp only [bind, Except.bind, e1, e2, hC, hF] at ht
      cases e3 : computeData G cu uc b nodesC 0 with
      | error e => rw [e3] at ht; cases ht
      | ok c =>
        rw [e3] at ht
        dsimp only at ht
        cases e4 : computeData G cu' uc' b' nodesF c.nCor with
        | error e => rw [e4] at ht; cases ht
        | ok f =>
          rw [e4] at ht
          simp only [pure, Except.pure] at ht
          injection ht with ht
          subst ht
          obtain ⟨p1, p2, p3⟩ := preFile_ok e1 n1 n2
          obtain ⟨q1, q2, q3⟩ := preFile_ok e2 n3 n4
          obtain ⟨c1, c2, ⟨bnd, c3, c4⟩, c5, -⟩ := computeData_ok he e3
          obtain ⟨f1, f2, -, f5, -⟩ := computeData_ok he e4
          have hcU : c.unknown = U := by
            rw [p2] at c5
            have := mapM_of_forall₂ (α := String × String) (f := fun e => dictGet nodesC e.2)
              (xs := ((rowsOf preC).filter (fun e => !fixed e)).map Prod.swap) (ys := U)
              (by rw [List.forall₂_map_left_iff]; exact hU)
            rw [this] at c5
            cases c5
            rfl
          have hbB : bnd = B := by
            rw [p3] at c3
            have := mapM_of_forall₂ (α := String) (f := fun b => dictGet nodesC b)
              (xs := ((rowsOf preC).filter fixed).map (·.1)) (ys := B)
              (by rw [List.forall₂_map_left_iff]; exact hB)
            rw [this] at c3
            cases c3
            rfl
          subst hbB
          subst hcU
          refine ⟨fun i hi => ?_, fun i e p hr hp => ?_⟩
          · obtain ⟨-, -, -, -, -, y2, -, -, -, -, -, -, -, e8⟩ := interpolation_parts h
            rw [e8, List.getElem?_append_left (by omega)]
          · have hlen : c.unknown.length = cu.length := by rw [c2, p1, p2, List.length_map]
            have hpf : f.unknown[c.nCor + i]? = some p := by
              have hfa := mapM_ok f5
              rw [q2, List.forall₂_map_left_iff] at hfa
              rw [c1, ← hlen]
              have hlt := (List.getElem?_eq_some_iff.1 hr).1
              have hlt' : c.unknown.length + i < f.unknown.length := by rw [← hfa.length_eq]; exact hlt
              have := hfa.get hlt hlt'
              have hre : ((rowsOf preF).filter fun e => !fixed e)[c.unknown.length + i] = e :=
                (List.getElem?_eq_some_iff.1 hr).2
              simp only [List.get_eq_getElem] at this
              rw [hre] at this
              rw [show (Prod.swap e).2 = e.1 from rfl, hp] at this
              injection this with this
              rw [List.getElem?_eq_getElem hlt', ← this]
            have := interpolation_values he e3 e4 c3 c1 (by rw [q1, q2, List.length_map]) hu h hpf
            rw [hu, c4] at this
            exact this

/-- **C80 (partial)**: the interpolated vector agrees with the coarse vector at the unknowns of the
coarser mesh.  At a new unknown at `p` that lies in the triangle `A B C` found for it, with barycentric
coordinates `l0, l1, l2`, the value is the linear interpolant of the values at the corners, which are
the entries of the coarse vector, and zero at nodes with prescribed value.  Here the triangulation of a
region joins its unknowns and the nodes with prescribed values.  Missing: a point outside of the triangle
found for it (`C80_not_constant`), and a point in neither region (`C80_gap`). -/
theorem C80_linear_partial {G : Geo K} (he : G.e1 ≤ G.e2) {float : String → Except String K}
    {del : List (K × K) → Tri K} {preC mshC preF mshF : List Line} {d : Data K}
    (ht : transfer G float del preC mshC preF mshF = .ok d)
    (n1 : (((rowsOf preC).filter fun e => !fixed e).map (·.1)).Nodup)
    (n2 : (((rowsOf preC).filter fun e => !fixed e).map (·.2)).Nodup)
    (n3 : (((rowsOf preF).filter fun e => !fixed e).map (·.1)).Nodup)
    (n4 : (((rowsOf preF).filter fun e => !fixed e).map (·.2)).Nodup)
    {nodesC nodesF : List (String × (K × K))} (hC : getNodes float mshC = .ok nodesC)
    (hF : getNodes float mshF = .ok nodesF) {U B : List (K × K)}
    (hU : List.Forall₂ (fun e p => dictGet nodesC e.1 = .ok p) ((rowsOf preC).filter fun e => !fixed e) U)
    (hB : List.Forall₂ (fun e p => dictGet nodesC e.1 = .ok p) ((rowsOf preC).filter fixed) B)
    {nan : K} {u w : Vec K} (hu : u.middle.length = U.length) (h : interpolation nan d u = .ok w) :
    (∀ i, i < U.length → w.middle[i]? = u.middle[i]?) ∧
    ∀ i e p, ((rowsOf preF).filter fun e => !fixed e)[U.length + i]? = some e → dictGet nodesF e.1 = .ok p →
      ∀ g : K × K → Bool, (∀ q, g q = true ↔ |G.rad q| < |G.ir| + G.e1) ∨
        (∀ q, g q = true ↔ |G.ir| + G.e2 < |G.rad q|) → g p = true →
      ∀ N : List ((K × K) × K), N = (U.zip u.middle ++ B.map fun q => (q, 0)).filter (fun x => g x.1) →
      ∀ va vb vc (A C D : (K × K) × K), (del (N.map (·.1))).vertices p = (va, vb, vc) →
        N[va]? = some A → N[vb]? = some C → N[vc]? = some D →
        (A.1.1 - D.1.1) * (C.1.2 - D.1.2) - (C.1.1 - D.1.1) * (A.1.2 - D.1.2) ≠ 0 →
      ∀ l0 l1 l2 : K, 0 ≤ l0 → 0 ≤ l1 → 0 ≤ l2 → l0 + l1 + l2 = 1 →
        p.1 = l0 * A.1.1 + l1 * C.1.1 + l2 * D.1.1 → p.2 = l0 * A.1.2 + l1 * C.1.2 + l2 * D.1.2 →
        w.middle[U.length + i]? = some (l0 * A.2 + l1 * C.2 + l2 * D.2) := by
  obtain ⟨r1, r2⟩ := transfer_values he ht n1 n2 n3 n4 hC hF hU hB hu h
  refine ⟨r1, fun i e p hr hp g hg hgp N hN va vb vc A C D hv hA hC' hD hdet l0 l1 l2 h0 h1 h2 hs hx hy => ?_⟩
  have hN' : N = regionNodes g U B u.middle := hN
  have hfst := regionNodes_fst g U B u.middle hu
  rw [← hN'] at hfst
  have hval : valueAt (del ((U ++ B).filter g)) (regionNodes g U B u.middle) p =
      l0 * A.2 + l1 * C.2 + l2 * D.2 := by
    rw [← hfst, ← hN', valueAt_eq hv hA hC' hD hdet hs hx hy, clip_of_nonneg h0, clip_of_nonneg h1,
      clip_of_nonneg h2]
  have := r2 i e p hr hp
  have hg' : g = G.inner ∨ g = G.outer := by
    refine hg.imp (fun hg => ?_) (fun hg => ?_) <;> funext q <;> rw [Bool.eq_iff_iff, hg]
    · unfold Geo.inner
      rw [decide_eq_true_iff, sub_lt_iff_lt_add]
    · unfold Geo.outer
      rw [decide_eq_true_iff]
  clear hg
  rcases hg' with rfl | rfl
  · rw [this, if_pos hgp, hval]
  · have : G.inner p = false := by
      unfold Geo.inner
      unfold Geo.outer at hgp
      rw [decide_eq_true_iff] at hgp
      rw [decide_eq_false_iff_not]
      intro hc
      linarith
    rw [r2 i e p hr hp, this, if_neg Bool.false_ne_true, if_pos hgp, hval]

/-- **C80**, points between the regions: the value is the entry of the *coarse* vector at the position of
the point among the new points, which belongs to a node elsewhere, or zero. -/
theorem C80_gap {G : Geo K} (he : G.e1 ≤ G.e2) {float : String → Except String K}
    {del : List (K × K) → Tri K} {preC mshC preF mshF : List Line} {d : Data K}
    (ht : transfer G float del preC mshC preF mshF = .ok d)
    (n1 : (((rowsOf preC).filter fun e => !fixed e).map (·.1)).Nodup)
    (n2 : (((rowsOf preC).filter fun e => !fixed e).map (·.2)).Nodup)
    (n3 : (((rowsOf preF).filter fun e => !fixed e).map (·.1)).Nodup)
    (n4 : (((rowsOf preF).filter fun e => !fixed e).map (·.2)).Nodup)
    {nodesC nodesF : List (String × (K × K))} (hC : getNodes float mshC = .ok nodesC)
    (hF : getNodes float mshF = .ok nodesF) {U B : List (K × K)}
    (hU : List.Forall₂ (fun e p => dictGet nodesC e.1 = .ok p) ((rowsOf preC).filter fun e => !fixed e) U)
    (hB : List.Forall₂ (fun e p => dictGet nodesC e.1 = .ok p) ((rowsOf preC).filter fixed) B)
    {nan : K} {u w : Vec K} (hu : u.middle.length = U.length) (h : interpolation nan d u = .ok w)
    {i : Nat} {e : String × String} {p : K × K}
    (hr : ((rowsOf preF).filter fun e => !fixed e)[U.length + i]? = some e) (hp : dictGet nodesF e.1 = .ok p)
    (hi : |G.ir| + G.e1 ≤ |G.rad p|) (ho : |G.rad p| ≤ |G.ir| + G.e2) :
    w.middle[U.length + i]? = some (u.middle.getD i 0) := by
  obtain ⟨-, r2⟩ := transfer_values he ht n1 n2 n3 n4 hC hF hU hB hu h
  have hi : G.inner p = false := by
    unfold Geo.inner
    rw [decide_eq_false_iff_not, not_lt]
    linarith
  have ho : G.outer p = false := by
    unfold Geo.outer
    rw [decide_eq_false_iff_not, not_lt]
    exact ho
  rw [r2 i e p hr hp, hi, ho]
  rfl

/-! ### A pair of meshes -/

/-- Numbers used in the example. -/
def exFloat (s : String) : Except String ℚ :=
  match [("0.1", 1/10), ("0.2", 2/10), ("0.3", 3/10), ("0.5", 5/10), ("0.6", 6/10), ("3", 3), ("4", 4),
    ("5", 5), ("4.5", 9/2), ("4.2", 21/5), ("6", 6), ("px", 8/30), ("py", 11/30), ("qx", 61/15), ("qy", 29/6),
    ("rx", 24/5), ("ry", 53/10), ("gx", 7/10), ("gy", 3/10 + 1/10^8), ("sx", 19/5), ("sy", 37/8)].find? (·.1 = s) with
  | some e => .ok e.2
  | none => .error "ValueError"

/-- Triangulation with one triangle. -/
def exDel (_ : List (ℚ × ℚ)) : Tri ℚ := { simplices := [(0, 1, 2)], find := fun _ => some 0 }

def exGeo : Geo ℚ := { rad := fun p => |p.1| + |p.2|, ir := 1, e1 := 1 / 10^9, e2 := 1 / 10^7 }

/-- Pre-processing file with the given rows. -/
def exPre (rows : List (String × String)) : List Line :=
  List.replicate 9 [] ++ rows.map (fun e => ["0", e.1, "0", "0", e.2]) ++ List.replicate 35 []

/-- Mesh file with the given nodes. -/
def exMsh (rows : List Line) : List Line := [["$Nodes"], ["1", "9"]] ++ rows ++ [["$EndNodes"]]

def exPreC := exPre [("a", "2"), ("b", "3"), ("c", "1"), ("d", "4"), ("e", "5"), ("f", "6")]

def exMshC := exMsh [["a", "0.1", "0.2"], ["b", "0.5", "0.3"], ["c", "0.2", "0.6"],
  ["d", "3", "4"], ["e", "5", "4.5"], ["f", "4.2", "6"]]

def exPreF := exPre [("a", "2"), ("b", "3"), ("c", "1"), ("d", "4"), ("e", "5"), ("f", "6"),
  ("p", "7"), ("q", "8"), ("r", "9"), ("g", "10"), ("s", "11")]

def exMshF := exMsh [["a", "0.1", "0.2"], ["b", "0.5", "0.3"], ["c", "0.2", "0.6"],
  ["d", "3", "4"], ["e", "5", "4.5"], ["f", "4.2", "6"], ["p", "px", "py"], ["q", "qx", "qy"],
  ["r", "rx", "ry"], ["g", "gx", "gy"], ["s", "sx", "sy"]]

/-- The interpolation between the two meshes of a vector with values 1, 2 in the inner and 1, 1, 1 in
the outer region. -/
def exVec : Vec ℚ :=
  { frontSize := 0, middleSize := 5, backSize := 0, front := [], middle := [1, 2, 1, 1, 1], back := [], scal := [] }

omit [IsStrictOrderedRing K] [LinearOrder K] [Field K] in
theorem ok_of_toOption {α β : Type} {x : Except String α} {y : α → Except String β} {z : β}
    (h : (x.bind y).toOption = some z) : ∃ a, x = .ok a ∧ y a = .ok z := by
  cases x with
  | error e => cases h
  | ok a =>
    refine ⟨a, rfl, ?_⟩
    change (y a).toOption = some z at h
    cases hy : y a with
    | error e => rw [hy] at h; cases h
    | ok b => rw [hy] at h; cases h; rfl

/-- **C80, counterexample**: the interpolation succeeds and the five new values are: mean of 1, 2 and the
prescribed 0 (`p`, inner), mean of 1, 1, 1 (`q`, outer), 11/10 although all corners have the value 1
(`r`, outer, slightly outside of its triangle), entry 3 of the coarse vector (`g`, between the regions), 1
(`s`, outer). -/
theorem C80_not_constant : ∃ d w, transfer exGeo exFloat exDel exPreC exMshC exPreF exMshF = .ok d ∧
    interpolation 0 d exVec = .ok w ∧ w.middle = [1, 2, 1, 1, 1, 1, 1, 11/10, 1, 1] := by
  obtain ⟨d, h1, h2⟩ := ok_of_toOption (x := transfer exGeo exFloat exDel exPreC exMshC exPreF exMshF)
    (y := fun d => (interpolation 0 d exVec).map (·.middle)) (z := [1, 2, 1, 1, 1, 1, 1, 11/10, 1, 1])
    (by decide +kernel)
  cases h3 : interpolation 0 d exVec with
  | error e => rw [h3] at h2; cases h2
  | ok w => rw [h3] at h2; exact ⟨d, w, h1, h3, by injection h2⟩

theorem ok_of_toOption' {α : Type} {x : Except String α} {z : α} (h : x.toOption = some z) : x = .ok z := by
  cases x with
  | error e => cases h
  | ok a => cases h; rfl

/-- The hypotheses of `C80_linear_partial` hold for the two meshes above, and it gives the value at `p`. -/
example : ∃ (d : Data ℚ) (w : Vec ℚ), interpolation 0 d exVec = .ok w ∧
    w.middle[5]? = some (1/3 * 1 + 1/3 * 2 + 1/3 * 0) := by
  obtain ⟨d, w, h1, h2, -⟩ := C80_not_constant
  have hC : getNodes exFloat exMshC = .ok [("a", (1/10, 2/10)), ("b", (5/10, 3/10)), ("c", (2/10, 6/10)),
      ("d", (3, 4)), ("e", (5, 9/2)), ("f", (21/5, 6))] := ok_of_toOption' (by decide +kernel)
  have hF : getNodes exFloat exMshF = .ok [("a", (1/10, 2/10)), ("b", (5/10, 3/10)), ("c", (2/10, 6/10)),
      ("d", (3, 4)), ("e", (5, 9/2)), ("f", (21/5, 6)), ("p", (8/30, 11/30)), ("q", (61/15, 29/6)),
      ("r", (24/5, 53/10)), ("g", (7/10, 3/10 + 1/10^8)), ("s", (19/5, 37/8))] :=
    ok_of_toOption' (by decide +kernel)
  refine ⟨d, w, h2, ?_⟩
  exact (C80_linear_partial (by decide +kernel) h1 (by decide) (by decide) (by decide) (by decide) hC hF
    (U := [(1/10, 2/10), (5/10, 3/10), (3, 4), (5, 9/2), (21/5, 6)]) (B := [(2/10, 6/10)])
    (by
      rw [show (rowsOf exPreC).filter (fun e => !fixed e) =
        [("a", "2"), ("b", "3"), ("d", "4"), ("e", "5"), ("f", "6")] by decide]
      refine .cons ?_ (.cons ?_ (.cons ?_ (.cons ?_ (.cons ?_ .nil)))) <;>
        exact ok_of_toOption' (by decide +kernel))
    (by
      rw [show (rowsOf exPreC).filter fixed = [("c", "1")] by decide]
      exact .cons (ok_of_toOption' (by decide +kernel)) .nil) rfl h2).2 0 ("p", "7") (8/30, 11/30)
    (by decide) (ok_of_toOption' (by decide +kernel)) exGeo.inner
    (.inl fun q => by unfold Geo.inner; rw [decide_eq_true_iff, sub_lt_iff_lt_add]) (by decide +kernel)
    [((1/10, 2/10), 1), ((5/10, 3/10), 2), ((2/10, 6/10), 0)] (by decide +kernel) 0 1 2 _ _ _ rfl rfl rfl rfl
    (by norm_num) (1/3) (1/3) (1/3) (by norm_num) (by norm_num) (by norm_num) (by norm_num) (by norm_num)
    (by norm_num)

end Pymgrit.Mesh
