import Verif.Seq
import Mathlib.Data.List.Nodup
import Mathlib.Data.List.Sort
import Mathlib.Tactic.Common

/-! Helper lemmas about the sweeps of `Verif.Seq`. -/

set_option linter.unusedSectionVars false

namespace Pymgrit

variable {V K : Type}

@[simp] theorem GState.setU_u_same (s : GState V) (l x) : (s.setU l x).u l = x := by
  simp [GState.setU]
theorem GState.setU_u_ne (s : GState V) {l l' : Nat} (x) (h : l' ≠ l) :
    (s.setU l x).u l' = s.u l' := by
  simp [GState.setU, h]
@[simp] theorem GState.setU_v (s : GState V) (l x) : (s.setU l x).v = s.v := rfl
@[simp] theorem GState.setU_g (s : GState V) (l x) : (s.setU l x).g = s.g := rfl

/-! ### Sweeps -/

@[simp] theorem sweep_nil (f : (Nat → V) → Nat → V) (u) : sweep [] f u = u := rfl
@[simp] theorem sweep_cons (i idx) (f : (Nat → V) → Nat → V) (u) :
    sweep (i :: idx) f u = sweep idx f (Function.update u i (f u i)) := rfl
theorem sweep_append (a b) (f : (Nat → V) → Nat → V) (u) :
    sweep (a ++ b) f u = sweep b f (sweep a f u) := by
  simp [sweep]

theorem sweep_of_not_mem {idx : List Nat} {f : (Nat → V) → Nat → V} {u : Nat → V} {j : Nat}
    (h : j ∉ idx) : sweep idx f u j = u j := by
  induction idx generalizing u with
  | nil => rfl
  | cons i idx ih =>
    simp only [List.mem_cons, not_or] at h
    rw [sweep_cons, ih h.2, Function.update_of_ne h.1]

/-- Visiting order in which no point is visited twice and no point is visited before its
predecessor. -/
def Compat (idx : List Nat) : Prop := idx.Pairwise fun a b => a ≠ b ∧ b + 1 ≠ a

theorem Compat.of_sorted {idx : List Nat} (h : idx.Pairwise (· < ·)) : Compat idx :=
  h.imp fun {a b} hab => ⟨by omega, by omega⟩

/-- A compatible sweep establishes the recurrence at every visited point. -/
theorem sweep_post {idx : List Nat} (hc : Compat idx) (h : Nat → V → V) (u : Nat → V)
    (hpos : ∀ i ∈ idx, 1 ≤ i) :
    ∀ i ∈ idx, sweep idx (fun u i => h i (u (i - 1))) u i
      = h i (sweep idx (fun u i => h i (u (i - 1))) u (i - 1)) := by
  induction idx generalizing u with
  | nil => simp
  | cons a idx ih =>
    intro i hi
    rw [sweep_cons]
    have hc' := List.pairwise_cons.1 hc
    rcases List.mem_cons.1 hi with rfl | hi'
    · have h1 : i ∉ idx := fun hm => (hc'.1 i hm).1 rfl
      have hp := hpos i (by simp)
      have h2 : i - 1 ∉ idx := fun hm => (hc'.1 (i - 1) hm).2 (by omega)
      rw [sweep_of_not_mem h1, sweep_of_not_mem h2, Function.update_self,
        Function.update_of_ne (by omega)]
    · exact ih hc'.2 _ (fun j hj => hpos j (by simp [hj])) i hi'

/-- Uniqueness: any array with the recurrence at the visited points and the old values elsewhere is
the result of the sweep. -/
theorem sweep_unique {idx : List Nat} (hc : Compat idx) (h : Nat → V → V) (u x : Nat → V)
    (hpos : ∀ i ∈ idx, 1 ≤ i) (hx : ∀ i ∈ idx, x i = h i (x (i - 1)))
    (hx' : ∀ i, i ∉ idx → x i = u i) :
    sweep idx (fun u i => h i (u (i - 1))) u = x := by
  funext i
  induction i using Nat.strong_induction_on with
  | _ i ih =>
    by_cases hi : i ∈ idx
    · rw [sweep_post hc h u hpos i hi, ih (i - 1) (by have := hpos i hi; omega), hx i hi]
    · rw [sweep_of_not_mem hi, hx' i hi]

theorem sweep_perm {idx idx' : List Nat} (hc : Compat idx) (hc' : Compat idx')
    (hp : ∀ i, i ∈ idx ↔ i ∈ idx') (h : Nat → V → V) (u : Nat → V) (hpos : ∀ i ∈ idx, 1 ≤ i) :
    sweep idx (fun u i => h i (u (i - 1))) u = sweep idx' (fun u i => h i (u (i - 1))) u := by
  have hpos' : ∀ i ∈ idx', 1 ≤ i := fun i hi => hpos i ((hp i).2 hi)
  refine sweep_unique hc h u _ hpos (fun i hi => sweep_post hc' h u hpos' i ((hp i).1 hi)) ?_
  intro i hi
  exact sweep_of_not_mem fun hm => hi ((hp i).2 hm)

/-! ### Loops writing at distinct keys -/

theorem foldl_update_not_mem {α : Type} (xs : List α) (key : α → Nat) (val : α → (Nat → V) → V)
    (u : Nat → V) {j : Nat} (hj : j ∉ xs.map key) :
    xs.foldl (fun u x => Function.update u (key x) (val x u)) u j = u j := by
  induction xs generalizing u with
  | nil => rfl
  | cons a xs ih =>
    simp only [List.map_cons, List.mem_cons, not_or] at hj
    rw [List.foldl_cons, ih _ hj.2, Function.update_of_ne hj.1]

theorem foldl_update_mem {α : Type} (xs : List α) (key : α → Nat) (val : α → V → V)
    (u : Nat → V) (hn : (xs.map key).Nodup) {x : α} (hx : x ∈ xs) :
    xs.foldl (fun u x => Function.update u (key x) (val x (u (key x)))) u (key x)
      = val x (u (key x)) := by
  induction xs generalizing u with
  | nil => simp at hx
  | cons a xs ih =>
    rw [List.map_cons, List.nodup_cons] at hn
    rw [List.foldl_cons]
    rcases List.mem_cons.1 hx with rfl | hx'
    · rw [foldl_update_not_mem xs key (fun x u => val x (u (key x))) _ hn.1, Function.update_self]
    · rw [ih _ hn.2 hx', Function.update_of_ne]
      intro h
      exact hn.1 (h ▸ List.mem_map_of_mem hx')

theorem foldl_if {α β : Type} (xs : List α) (p : α → Prop) [DecidablePred p] (f : β → α → β)
    (b : β) :
    xs.foldl (fun b x => if p x then b else f b x) b
      = (xs.filter (fun x => ¬ p x)).foldl f b := by
  induction xs generalizing b with
  | nil => rfl
  | cons a xs ih =>
    by_cases h : p a
    · simp [h, ih]
    · simp [h, ih]

theorem zipIdx_map_snd_nodup (xs : List Nat) : (xs.zipIdx.map Prod.snd).Nodup := by
  rw [List.zipIdx_map_snd]
  exact List.nodup_range'

theorem mem_zipIdx_get {xs : List Nat} {k : Nat} (hk : k < xs.length) :
    (xs[k], k) ∈ xs.zipIdx := by
  rw [List.mem_zipIdx_iff_getElem?]
  simp [hk]

theorem mem_zipIdx_iff {xs : List Nat} {c k : Nat} :
    (c, k) ∈ xs.zipIdx ↔ ∃ h : k < xs.length, c = xs[k] := by
  rw [List.mem_zipIdx_iff_getElem?, List.getElem?_eq_some_iff]
  exact ⟨fun ⟨h, e⟩ => ⟨h, e.symm⟩, fun ⟨h, e⟩ => ⟨h, e.symm⟩⟩

theorem nodup_filter_map {α : Type} (xs : List α) (key : α → Nat) (p : α → Bool)
    (h : (xs.map key).Nodup) : ((xs.filter p).map key).Nodup :=
  h.sublist (List.filter_sublist.map key)

namespace Sys
variable (S : Sys V K)

/-- Index of the `k`-th C-point of level `l`. -/
def cpt (l k : Nat) : Nat := (S.C l).getD k 0

/-- Well-formedness of the static data: what `setup_points_and_comm_info` produces for nested,
strictly increasing grids containing the initial time (proved in `Verif.Grid`). -/
structure WF : Prop where
  Lpos : 0 < S.L
  npos : ∀ l, l < S.L → 0 < S.n l
  C_sorted : ∀ l, l + 1 < S.L → (S.C l).Pairwise (· < ·)
  C_zero : ∀ l, l + 1 < S.L → (S.C l)[0]? = some 0
  C_len : ∀ l, l + 1 < S.L → (S.C l).length = S.n (l + 1)
  C_lt : ∀ l, l + 1 < S.L → ∀ c ∈ S.C l, c < S.n l
  C_last : S.C (S.L - 1) = List.range (S.n (S.L - 1))
  F_mem : ∀ l, l + 1 < S.L → ∀ i, i ∈ S.F l ↔ i < S.n l ∧ i ∉ S.C l
  F_compat : ∀ l, l + 1 < S.L → Compat (S.F l)

variable {S}

theorem WF.zero_mem_C (h : S.WF) {l : Nat} (hl : l + 1 < S.L) : 0 ∈ S.C l :=
  List.mem_of_getElem? (h.C_zero l hl)

theorem WF.F_pos (h : S.WF) {l : Nat} (hl : l + 1 < S.L) : ∀ i ∈ S.F l, 1 ≤ i := by
  intro i hi
  rcases Nat.eq_zero_or_pos i with rfl | h0
  · exact absurd (h.zero_mem_C hl) ((h.F_mem l hl 0).1 hi).2
  · exact h0

theorem WF.C_nodup (h : S.WF) {l : Nat} (hl : l + 1 < S.L) : (S.C l).Nodup :=
  (h.C_sorted l hl).imp fun hab => Nat.ne_of_lt hab

theorem WF.cpt_zero (h : S.WF) {l : Nat} (hl : l + 1 < S.L) : S.cpt l 0 = 0 := by
  simp [cpt, List.getD, h.C_zero l hl]

theorem cpt_eq {l k : Nat} (hk : k < (S.C l).length) : S.cpt l k = (S.C l)[k] := by
  simp [cpt, hk]

theorem cpt_mem {l k : Nat} (hk : k < (S.C l).length) : S.cpt l k ∈ S.C l := by
  rw [cpt_eq hk]; exact List.getElem_mem hk

theorem WF.cpt_lt (h : S.WF) {l k k' : Nat} (hl : l + 1 < S.L) (hkk : k < k')
    (hk : k' < S.n (l + 1)) : S.cpt l k < S.cpt l k' := by
  have hlen := h.C_len l hl
  rw [cpt_eq (by omega), cpt_eq (by omega)]
  exact List.pairwise_iff_getElem.1 (h.C_sorted l hl) k k' (by omega) (by omega) hkk

theorem WF.cpt_le_iff (h : S.WF) {l k k' : Nat} (hl : l + 1 < S.L) (hk1 : k < S.n (l + 1))
    (hk : k' < S.n (l + 1)) : S.cpt l k ≤ S.cpt l k' ↔ k ≤ k' := by
  constructor
  · intro hle
    by_contra hlt
    have := h.cpt_lt hl (Nat.lt_of_not_le hlt) hk1
    omega
  · intro hle
    rcases Nat.lt_or_eq_of_le hle with h1 | rfl
    · exact Nat.le_of_lt (h.cpt_lt hl h1 hk)
    · exact Nat.le_refl _

theorem WF.mem_C_iff (h : S.WF) {l : Nat} (hl : l + 1 < S.L) {i : Nat} :
    i ∈ S.C l ↔ ∃ k, k < S.n (l + 1) ∧ i = S.cpt l k := by
  rw [List.mem_iff_getElem]
  constructor
  · rintro ⟨k, hk, rfl⟩
    exact ⟨k, h.C_len l hl ▸ hk, (cpt_eq hk).symm⟩
  · rintro ⟨k, hk, rfl⟩
    have : k < (S.C l).length := by rw [h.C_len l hl]; exact hk
    exact ⟨k, this, (cpt_eq this).symm⟩

/-- `i ≤ p` is covered by a C-point: the last C-point at or before `p`. -/
theorem WF.exists_last_C (h : S.WF) {l : Nat} (hl : l + 1 < S.L) (p : Nat) :
    ∃ q, q < S.n (l + 1) ∧ S.cpt l q ≤ p ∧ ∀ k, k < S.n (l + 1) → S.cpt l k ≤ p → k ≤ q := by
  have hn := h.npos (l + 1) hl
  have key : ∀ m, m < S.n (l + 1) → ∃ q, q ≤ m ∧ S.cpt l q ≤ p ∧
      ∀ k, k ≤ m → S.cpt l k ≤ p → k ≤ q := by
    intro m
    induction m with
    | zero => intro _; exact ⟨0, Nat.le_refl 0, by rw [h.cpt_zero hl]; exact Nat.zero_le p,
        fun k hk _ => hk⟩
    | succ m ih =>
      intro hm
      by_cases hc : S.cpt l (m + 1) ≤ p
      · exact ⟨m + 1, Nat.le_refl _, hc, fun k hk _ => hk⟩
      · obtain ⟨q, hq, hqp, hmax⟩ := ih (by omega)
        refine ⟨q, by omega, hqp, fun k hk hkp => ?_⟩
        rcases Nat.lt_or_eq_of_le hk with h1 | rfl
        · exact hmax k (by omega) hkp
        · exact absurd hkp hc
  obtain ⟨q, hq, hqp, hmax⟩ := key (S.n (l + 1) - 1) (by omega)
  exact ⟨q, by omega, hqp, fun k hk hkp => hmax k (by omega) hkp⟩

/-! ### Pointwise characterisation of the sweeps -/

section char
variable [Add V]

theorem fRelax_u_ne {l l' : Nat} (s : GState V) (h : l' ≠ l) : (S.fRelax l s).u l' = s.u l' :=
  GState.setU_u_ne _ _ h
@[simp] theorem fRelax_v (l) (s : GState V) : (S.fRelax l s).v = s.v := rfl
@[simp] theorem fRelax_g (l) (s : GState V) : (S.fRelax l s).g = s.g := rfl

theorem WF.fRelax_C (h : S.WF) {l : Nat} (hl : l + 1 < S.L) (s : GState V) {i : Nat}
    (hi : i ∈ S.C l) : (S.fRelax l s).u l i = s.u l i := by
  simp only [fRelax, GState.setU_u_same]
  exact sweep_of_not_mem fun hm => ((h.F_mem l hl i).1 hm).2 hi

theorem fRelax_not_F {l : Nat} (s : GState V) {i : Nat}
    (hi : i ∉ S.F l) : (S.fRelax l s).u l i = s.u l i := by
  simp only [fRelax, GState.setU_u_same]
  exact sweep_of_not_mem hi

theorem WF.fRelax_F (h : S.WF) {l : Nat} (hl : l + 1 < S.L) (s : GState V) {i : Nat}
    (hi : i < S.n l) (hC : i ∉ S.C l) :
    (S.fRelax l s).u l i = S.prop s.g l i ((S.fRelax l s).u l (i - 1)) := by
  simp only [fRelax, GState.setU_u_same]
  exact sweep_post (h.F_compat l hl) (fun i x => S.prop s.g l i x) (s.u l) (h.F_pos hl) i
    ((h.F_mem l hl i).2 ⟨hi, hC⟩)

theorem forwardSolve_u_ne {l l' : Nat} (s : GState V) (h : l' ≠ l) :
    (S.forwardSolve l s).u l' = s.u l' := GState.setU_u_ne _ _ h
@[simp] theorem forwardSolve_v (l) (s : GState V) : (S.forwardSolve l s).v = s.v := rfl
@[simp] theorem forwardSolve_g (l) (s : GState V) : (S.forwardSolve l s).g = s.g := rfl

theorem forwardSolve_zero (l) (s : GState V) : (S.forwardSolve l s).u l 0 = s.u l 0 := by
  simp only [forwardSolve, GState.setU_u_same]
  exact sweep_of_not_mem (by simp)

theorem forwardSolve_pos {l i : Nat} (s : GState V) (h1 : 1 ≤ i) (hi : i < S.n l) :
    (S.forwardSolve l s).u l i = S.prop s.g l i ((S.forwardSolve l s).u l (i - 1)) := by
  simp only [forwardSolve, GState.setU_u_same]
  refine sweep_post (Compat.of_sorted ?_) (fun i x => S.prop s.g l i x) (s.u l) ?_ i ?_
  · exact List.pairwise_lt_range'
  · intro j hj; simp at hj; omega
  · simp; omega

theorem cRelax_u_ne [SMul K V] [One K] [Sub K] {l l' : Nat} (s : GState V) (h : l' ≠ l) :
    (S.cRelax l s).u l' = s.u l' := GState.setU_u_ne _ _ h
@[simp] theorem cRelax_v [SMul K V] [One K] [Sub K] (l) (s : GState V) :
    (S.cRelax l s).v = s.v := rfl
@[simp] theorem cRelax_g [SMul K V] [One K] [Sub K] (l) (s : GState V) :
    (S.cRelax l s).g = s.g := rfl

theorem cRelax_not_C [SMul K V] [One K] [Sub K] {l i : Nat} (s : GState V)
    (h : i ∉ S.C l) : (S.cRelax l s).u l i = s.u l i := by
  simp only [cRelax, GState.setU_u_same]
  exact sweep_of_not_mem fun hm => h (List.mem_filter.1 hm).1

theorem cRelax_zero [SMul K V] [One K] [Sub K] {l : Nat} (s : GState V) :
    (S.cRelax l s).u l 0 = s.u l 0 := by
  simp only [cRelax, GState.setU_u_same]
  exact sweep_of_not_mem fun hm => by simp at hm

/-- General ascending sweep with relaxation: result in terms of the *new* predecessor value. -/
theorem sweep_relax {idx : List Nat} (hs : idx.Pairwise (· < ·)) (h : Nat → V → V → V)
    (u : Nat → V) (hpos : ∀ i ∈ idx, 1 ≤ i) :
    ∀ i ∈ idx, sweep idx (fun u i => h i (u (i - 1)) (u i)) u i
      = h i (sweep idx (fun u i => h i (u (i - 1)) (u i)) u (i - 1)) (u i) := by
  induction idx generalizing u with
  | nil => simp
  | cons a idx ih =>
    intro i hi
    rw [sweep_cons]
    have hs' := List.pairwise_cons.1 hs
    rcases List.mem_cons.1 hi with rfl | hi'
    · have hp := hpos i (by simp)
      have h1 : i ∉ idx := fun hm => by have := hs'.1 i hm; omega
      have h2 : i - 1 ∉ idx := fun hm => by have := hs'.1 (i - 1) hm; omega
      rw [sweep_of_not_mem h1, sweep_of_not_mem h2, Function.update_self,
        Function.update_of_ne (by omega)]
    · rw [ih hs'.2 _ (fun j hj => hpos j (by simp [hj])) i hi',
        Function.update_of_ne (by have := hs'.1 i hi'; omega)]

theorem WF.cRelax_C [SMul K V] [One K] [Sub K] (h : S.WF) {l : Nat} (hl : l + 1 < S.L)
    (s : GState V) {i : Nat} (hi : i ∈ S.C l) (h0 : i ≠ 0) :
    (S.cRelax l s).u l i =
      S.w • S.prop s.g l i ((S.cRelax l s).u l (i - 1)) + (1 - S.w) • s.u l i := by
  simp only [cRelax, GState.setU_u_same]
  refine sweep_relax ((h.C_sorted l hl).filter _)
    (fun i x y => S.w • S.prop s.g l i x + (1 - S.w) • y) (s.u l) ?_ i ?_
  · intro j hj; simp at hj; omega
  · simp [hi, h0]

end char

section fas
variable [Add V] [Sub V]

theorem fasResidual_u_ne {l l' : Nat} (s : GState V) (h : l' ≠ l + 1) :
    (S.fasResidual l s).u l' = s.u l' := by simp [fasResidual, h]
theorem fasResidual_v_ne {l l' : Nat} (s : GState V) (h : l' ≠ l + 1) :
    (S.fasResidual l s).v l' = s.v l' := by simp [fasResidual, h]
theorem fasResidual_g_ne {l l' : Nat} (s : GState V) (h : l' ≠ l + 1) :
    (S.fasResidual l s).g l' = s.g l' := by simp [fasResidual, h]

theorem fasResidual_v_eq (l) (s : GState V) :
    (S.fasResidual l s).v (l + 1) = (S.fasResidual l s).u (l + 1) := by simp [fasResidual]

theorem WF.fasResidual_u (h : S.WF) {l k : Nat} (hl : l + 1 < S.L) (s : GState V)
    (hk : k < S.n (l + 1)) :
    (S.fasResidual l s).u (l + 1) k = S.R l (s.u l (S.cpt l k)) := by
  have hk' : k < (S.C l).length := by rw [h.C_len l hl]; exact hk
  simp only [fasResidual, Function.update_self]
  have := foldl_update_mem (S.C l).zipIdx Prod.snd (fun ck _ => S.R l (s.u l ck.1)) (s.u (l + 1))
    (zipIdx_map_snd_nodup _) (mem_zipIdx_get hk')
  rw [cpt_eq hk']
  exact this

theorem WF.fasResidual_g (h : S.WF) {l k : Nat} (hl : l + 1 < S.L) (s : GState V)
    (hk : k < S.n (l + 1)) (h0 : k ≠ 0) :
    (S.fasResidual l s).g (l + 1) k = S.fasRes s l (S.cpt l k)
      + (S.fasResidual l s).u (l + 1) k
      - S.Φ (l + 1) k ((S.fasResidual l s).u (l + 1) (k - 1)) := by
  have hk' : k < (S.C l).length := by rw [h.C_len l hl]; exact hk
  simp only [fasResidual, Function.update_self]
  rw [foldl_if (S.C l).zipIdx (fun ck => ck.2 = 0), cpt_eq hk']
  generalize (S.C l).zipIdx.foldl (fun (u : Nat → V) ck =>
    Function.update u ck.2 (S.R l (s.u l ck.1))) (s.u (l + 1)) = u1
  refine foldl_update_mem ((S.C l).zipIdx.filter _) Prod.snd
    (fun ck _ => S.fasRes s l ck.1 + u1 ck.2 - S.Φ (l + 1) ck.2 (u1 (ck.2 - 1))) (s.g (l + 1))
    (nodup_filter_map _ _ _ (zipIdx_map_snd_nodup _)) (x := ((S.C l)[k], k)) ?_
  rw [List.mem_filter]
  exact ⟨mem_zipIdx_get hk', by simp [h0]⟩

theorem errorCorrection_u_ne {l l' : Nat} (s : GState V) (h : l' ≠ l) :
    (S.errorCorrection l s).u l' = s.u l' := GState.setU_u_ne _ _ h
@[simp] theorem errorCorrection_v (l) (s : GState V) : (S.errorCorrection l s).v = s.v := rfl
@[simp] theorem errorCorrection_g (l) (s : GState V) : (S.errorCorrection l s).g = s.g := rfl

theorem zipIdx_map_fst_nodup {xs : List Nat} (h : xs.Nodup) : (xs.zipIdx.map Prod.fst).Nodup := by
  rw [List.zipIdx_map_fst]; exact h

theorem WF.errorCorrection_C (h : S.WF) {l k : Nat} (hl : l + 1 < S.L) (s : GState V)
    (hk : k < S.n (l + 1)) (h0 : k ≠ 0) :
    (S.errorCorrection l s).u l (S.cpt l k)
      = s.u l (S.cpt l k) + S.I l (s.u (l + 1) k - s.v (l + 1) k) := by
  have hk' : k < (S.C l).length := by rw [h.C_len l hl]; exact hk
  simp only [errorCorrection, GState.setU_u_same]
  rw [foldl_if (S.C l).zipIdx (fun ck => ck.2 = 0), cpt_eq hk']
  refine foldl_update_mem ((S.C l).zipIdx.filter _) Prod.fst
    (fun ck y => y + S.I l (s.u (l + 1) ck.2 - s.v (l + 1) ck.2)) (s.u l)
    (nodup_filter_map _ _ _ (zipIdx_map_fst_nodup (h.C_nodup hl))) (x := ((S.C l)[k], k)) ?_
  rw [List.mem_filter]
  exact ⟨mem_zipIdx_get hk', by simp [h0]⟩

theorem WF.errorCorrection_not (h : S.WF) {l i : Nat} (hl : l + 1 < S.L) (s : GState V)
    (hi : i ∉ S.C l ∨ i = 0) : (S.errorCorrection l s).u l i = s.u l i := by
  simp only [errorCorrection, GState.setU_u_same]
  rw [foldl_if (S.C l).zipIdx (fun ck => ck.2 = 0)]
  refine foldl_update_not_mem _ Prod.fst
    (fun ck u => u ck.1 + S.I l (s.u (l + 1) ck.2 - s.v (l + 1) ck.2)) _ ?_
  rintro hm
  simp only [List.mem_map, List.mem_filter, Prod.exists] at hm
  obtain ⟨c, k, ⟨hck, hk0⟩, rfl⟩ := hm
  obtain ⟨hk, rfl⟩ := mem_zipIdx_iff.1 hck
  simp only [decide_not, Bool.not_eq_true', decide_eq_false_iff_not] at hk0
  rcases hi with hi | hi
  · exact hi (List.getElem_mem hk)
  · have := h.cpt_lt hl (Nat.pos_of_ne_zero hk0) (by rw [← h.C_len l hl]; exact hk)
    rw [cpt_eq hk, hi] at this
    omega

end fas

section interp
variable [Add V]

theorem interpolate_u_ne {l l' : Nat} (s : GState V) (h : l' ≠ l) :
    (S.interpolate l s).u l' = s.u l' := GState.setU_u_ne _ _ h
@[simp] theorem interpolate_v (l) (s : GState V) : (S.interpolate l s).v = s.v := rfl
@[simp] theorem interpolate_g (l) (s : GState V) : (S.interpolate l s).g = s.g := rfl

theorem WF.interpolate_C (h : S.WF) {l k : Nat} (hl : l + 1 < S.L) (s : GState V)
    (hk : k < S.n (l + 1)) (h0 : k ≠ 0) :
    (S.interpolate l s).u l (S.cpt l k) = S.I l (s.u (l + 1) k) := by
  have hk' : k < (S.C l).length := by rw [h.C_len l hl]; exact hk
  simp only [interpolate, GState.setU_u_same]
  rw [foldl_if (S.C l).zipIdx (fun ck => ck.2 = 0), cpt_eq hk']
  refine foldl_update_mem ((S.C l).zipIdx.filter _) Prod.fst
    (fun ck _ => S.I l (s.u (l + 1) ck.2)) (s.u l)
    (nodup_filter_map _ _ _ (zipIdx_map_fst_nodup (h.C_nodup hl))) (x := ((S.C l)[k], k)) ?_
  rw [List.mem_filter]
  exact ⟨mem_zipIdx_get hk', by simp [h0]⟩

theorem WF.interpolate_not (h : S.WF) {l i : Nat} (hl : l + 1 < S.L) (s : GState V)
    (hi : i ∉ S.C l ∨ i = 0) : (S.interpolate l s).u l i = s.u l i := by
  simp only [interpolate, GState.setU_u_same]
  rw [foldl_if (S.C l).zipIdx (fun ck => ck.2 = 0)]
  refine foldl_update_not_mem _ Prod.fst (fun ck _ => S.I l (s.u (l + 1) ck.2)) _ ?_
  rintro hm
  simp only [List.mem_map, List.mem_filter, Prod.exists] at hm
  obtain ⟨c, k, ⟨hck, hk0⟩, rfl⟩ := hm
  obtain ⟨hk, rfl⟩ := mem_zipIdx_iff.1 hck
  simp only [decide_not, Bool.not_eq_true', decide_eq_false_iff_not] at hk0
  rcases hi with hi | hi
  · exact hi (List.getElem_mem hk)
  · have := h.cpt_lt hl (Nat.pos_of_ne_zero hk0) (by rw [← h.C_len l hl]; exact hk)
    rw [cpt_eq hk, hi] at this
    omega

end interp

end Sys
end Pymgrit
