import Verif.Vectors
import Mathlib.Data.List.Basic

/-!
# Property C42: vectors
-/

namespace Pymgrit.Heap

variable {α : Type}

/-- All references are to arrays in use. -/
def Ok (m : Mem α) : Prop := ∀ o, o < m.no → ∀ a, Field.ref a ∈ m.obj o → a < m.na

/-- No array is referred to twice. -/
def Sep (m : Mem α) : Prop :=
  ∀ o p a, o < m.no → p < m.no → Field.ref a ∈ m.obj o → Field.ref a ∈ m.obj p → o = p

/-- Objects named by an operation exist. -/
def Op.Exists (m : Mem α) : Op α → Prop
  | .new _ => True
  | .clone o | .cloneZero o | .mul _ o | .setValues o _ | .unpack o _ | .write o _ _ => o < m.no
  | .add _ o p | .assign o p => o < m.no ∧ p < m.no

/-- The object whose values an operation is meant to change. -/
def Op.target : Op α → Option Nat
  | .setValues o _ | .unpack o _ | .assign o _ | .write o _ _ => some o
  | _ => none

/-- Operations through the public methods.  For the copying classes `o.set_values(p.get_values())` is
excluded: it makes two objects share an array that `unpack` writes to (`C42_shared_unpack`). -/
def Op.Public : Kind → Op α → Prop
  | _, .write _ _ _ => False
  | .copy, .assign _ _ => False
  | _, _ => True

/-- A program all of whose operations name existing objects. -/
def Sensible [Zero α] (k : Kind) : Mem α → List (Op α) → Prop
  | _, [] => True
  | m, op :: ops => op.Exists m ∧ Sensible k (m.step k op) ops

theorem alloc_spec (m : Mem α) (vs : List (Val α)) :
    (∀ a, a < m.na → (m.alloc vs).1.arr a = m.arr a) ∧ m.na ≤ (m.alloc vs).1.na ∧
    (m.alloc vs).1.obj = m.obj ∧ (m.alloc vs).1.no = m.no ∧
    (∀ a, Field.ref a ∈ (m.alloc vs).2 → m.na ≤ a ∧ a < (m.alloc vs).1.na) ∧
    (m.alloc vs).2.map (Field.val (m.alloc vs).1) = vs := by
  induction vs generalizing m with
  | nil =>
    refine ⟨fun _ _ => rfl, Nat.le_refl _, rfl, rfl, ?_, rfl⟩
    intro a ha; cases ha
  | cons v vs ih =>
    cases v with
    | num x =>
      obtain ⟨h1, h2, h3, h4, h5, h6⟩ := ih m
      refine ⟨h1, h2, h3, h4, ?_, ?_⟩
      · intro a ha
        simp only [Mem.alloc, List.mem_cons, reduceCtorEq, false_or] at ha
        exact h5 a ha
      · simp only [Mem.alloc, List.map_cons, h6]; rfl
    | arr xs =>
      obtain ⟨h1, h2, h3, h4, h5, h6⟩ := ih { m with arr := Function.update m.arr m.na xs
                                                     na := m.na + 1 }
      refine ⟨?_, ?_, h3, h4, ?_, ?_⟩
      · intro a ha
        have := h1 a (Nat.lt_succ_of_lt ha)
        simp only [Mem.alloc]
        rw [this]
        exact Function.update_of_ne (Nat.ne_of_lt ha) _ _
      · simp only [Mem.alloc]
        exact Nat.le_trans (Nat.le_succ _) h2
      · intro a ha
        simp only [Mem.alloc, List.mem_cons, Field.ref.injEq] at ha
        simp only [Mem.alloc]
        rcases ha with rfl | ha
        · exact ⟨Nat.le_refl _, h2⟩
        · exact ⟨Nat.le_trans (Nat.le_succ _) (h5 a ha).1, (h5 a ha).2⟩
      · simp only [Mem.alloc, List.map_cons, h6]
        have := h1 m.na (Nat.lt_succ_self _)
        simp only [Field.val, this, Function.update_self]

theorem val_congr {m m' : Mem α} {o : Nat} (h : m'.obj o = m.obj o)
    (ha : ∀ a, Field.ref a ∈ m.obj o → m'.arr a = m.arr a) : m'.val o = m.val o := by
  unfold Mem.val
  rw [h]
  refine List.map_congr_left fun f hf => ?_
  cases f with
  | ref a => simp only [Field.val]; rw [ha a hf]
  | num x => rfl

theorem fresh_old {m : Mem α} (h : Ok m) (vs : List (Val α)) {o : Nat} (ho : o < m.no) :
    (m.fresh vs).val o = m.val o := by
  obtain ⟨h1, h2, h3, h4, h5, h6⟩ := alloc_spec m vs
  refine val_congr ?_ ?_
  · simp only [Mem.fresh, Mem.push]
    rw [Function.update_of_ne (by rw [h4]; exact Nat.ne_of_lt ho), h3]
  · intro a ha
    exact h1 a (h o ho a ha)

theorem fresh_new (m : Mem α) (vs : List (Val α)) : (m.fresh vs).val m.no = vs := by
  obtain ⟨h1, h2, h3, h4, h5, h6⟩ := alloc_spec m vs
  simp only [Mem.val, Mem.fresh, Mem.push, h4, Function.update_self]
  exact h6

theorem ok_fresh {m : Mem α} (h : Ok m) (vs : List (Val α)) : Ok (m.fresh vs) := by
  obtain ⟨h1, h2, h3, h4, h5, h6⟩ := alloc_spec m vs
  intro o ho a ha
  simp only [Mem.fresh, Mem.push] at ho ha ⊢
  rw [h4] at ho ha
  by_cases hn : o = m.no
  · subst hn
    rw [Function.update_self] at ha
    exact (h5 a ha).2
  · rw [Function.update_of_ne hn, h3] at ha
    exact Nat.lt_of_lt_of_le (h o (by omega) a ha) h2

theorem sep_fresh {m : Mem α} (h : Ok m) (hs : Sep m) (vs : List (Val α)) : Sep (m.fresh vs) := by
  obtain ⟨h1, h2, h3, h4, h5, h6⟩ := alloc_spec m vs
  intro o p a ho hp hao hap
  simp only [Mem.fresh, Mem.push] at ho hp hao hap
  rw [h4] at ho hp hao hap
  by_cases hno : o = m.no <;> by_cases hnp : p = m.no
  · omega
  · subst hno
    rw [Function.update_self] at hao
    rw [Function.update_of_ne hnp, h3] at hap
    have := h p (by omega) a hap
    have := (h5 a hao).1
    omega
  · subst hnp
    rw [Function.update_self] at hap
    rw [Function.update_of_ne hno, h3] at hao
    have := h o (by omega) a hao
    have := (h5 a hap).1
    omega
  · rw [Function.update_of_ne hno, h3] at hao
    rw [Function.update_of_ne hnp, h3] at hap
    exact hs o p a (by omega) (by omega) hao hap

/-- `set_values` with new arrays. -/
theorem set_old {m : Mem α} (h : Ok m) (vs : List (Val α)) {o p : Nat} (hp : p < m.no) (hpo : p ≠ o) :
    ((m.alloc vs).1.bind o (m.alloc vs).2).val p = m.val p := by
  obtain ⟨h1, h2, h3, h4, h5, h6⟩ := alloc_spec m vs
  refine val_congr ?_ ?_
  · simp only [Mem.bind]
    rw [Function.update_of_ne hpo, h3]
  · intro a ha
    exact h1 a (h p hp a ha)

theorem set_new (m : Mem α) (vs : List (Val α)) (o : Nat) :
    ((m.alloc vs).1.bind o (m.alloc vs).2).val o = vs := by
  obtain ⟨h1, h2, h3, h4, h5, h6⟩ := alloc_spec m vs
  simp only [Mem.val, Mem.bind, Function.update_self]
  exact h6

theorem ok_set {m : Mem α} (h : Ok m) (vs : List (Val α)) (o : Nat) :
    Ok ((m.alloc vs).1.bind o (m.alloc vs).2) := by
  obtain ⟨h1, h2, h3, h4, h5, h6⟩ := alloc_spec m vs
  intro p hp a ha
  simp only [Mem.bind] at hp ha ⊢
  rw [h4] at hp
  by_cases hn : p = o
  · subst hn
    rw [Function.update_self] at ha
    exact (h5 a ha).2
  · rw [Function.update_of_ne hn, h3] at ha
    exact Nat.lt_of_lt_of_le (h p hp a ha) h2

theorem sep_set {m : Mem α} (h : Ok m) (hs : Sep m) (vs : List (Val α)) (q : Nat) :
    Sep ((m.alloc vs).1.bind q (m.alloc vs).2) := by
  obtain ⟨h1, h2, h3, h4, h5, h6⟩ := alloc_spec m vs
  intro o p a ho hp hao hap
  simp only [Mem.bind] at ho hp hao hap
  rw [h4] at ho hp
  by_cases hno : o = q <;> by_cases hnp : p = q
  · omega
  · subst hno
    rw [Function.update_self] at hao
    rw [Function.update_of_ne hnp, h3] at hap
    have := h p hp a hap
    have := (h5 a hao).1
    omega
  · subst hnp
    rw [Function.update_self] at hap
    rw [Function.update_of_ne hno, h3] at hao
    have := h o ho a hao
    have := (h5 a hap).1
    omega
  · rw [Function.update_of_ne hno, h3] at hao
    rw [Function.update_of_ne hnp, h3] at hap
    exact hs o p a ho hp hao hap

theorem store_spec (m : Mem α) (fs : List (Field α)) (vs : List (Val α)) :
    (∀ a, Field.ref a ∉ fs → (m.store fs vs).arr a = m.arr a) ∧ (m.store fs vs).na = m.na ∧
    (m.store fs vs).obj = m.obj ∧ (m.store fs vs).no = m.no := by
  induction fs generalizing m vs with
  | nil => cases vs <;> simp [Mem.store]
  | cons f fs ih =>
    cases vs with
    | nil => cases f <;> simp [Mem.store]
    | cons v vs =>
      cases f with
      | num x =>
        have := ih m vs
        cases v <;> simpa [Mem.store] using this
      | ref b =>
        cases v with
        | num x =>
          obtain ⟨h1, h2, h3, h4⟩ := ih m vs
          refine ⟨fun a ha => ?_, h2, h3, h4⟩
          rw [List.mem_cons, not_or] at ha
          exact h1 a ha.2
        | arr xs =>
          obtain ⟨h1, h2, h3, h4⟩ := ih { m with arr := Function.update m.arr b xs } vs
          refine ⟨fun a ha => ?_, h2, h3, h4⟩
          rw [List.mem_cons, not_or] at ha
          have := h1 a ha.2
          simp only [Mem.store]
          rw [this]
          exact Function.update_of_ne (fun h => ha.1 (by rw [h])) _ _

variable [Zero α]

/-- One operation. -/
theorem step_inv {k : Kind} {m : Mem α} (h : Ok m) (hs : k = .copy → Sep m) {op : Op α}
    (he : op.Exists m) (hp : op.Public k) :
    Ok (m.step k op) ∧ (k = .copy → Sep (m.step k op)) ∧ m.no ≤ (m.step k op).no ∧
    ∀ o, o < m.no → op.target ≠ some o → (m.step k op).val o = m.val o := by
  have hfresh : ∀ vs, Ok (m.fresh vs) ∧ (k = .copy → Sep (m.fresh vs)) ∧ m.no ≤ (m.fresh vs).no ∧
      ∀ o, o < m.no → (m.fresh vs).val o = m.val o := by
    intro vs
    refine ⟨ok_fresh h vs, fun hk => sep_fresh h (hs hk) vs, ?_, fun o ho => fresh_old h vs ho⟩
    simp only [Mem.fresh, Mem.push, (alloc_spec m vs).2.2.2.1]
    omega
  have hset : ∀ o vs, Ok ((m.alloc vs).1.bind o (m.alloc vs).2) ∧
      (k = .copy → Sep ((m.alloc vs).1.bind o (m.alloc vs).2)) ∧
      m.no ≤ ((m.alloc vs).1.bind o (m.alloc vs).2).no ∧
      ∀ p, p < m.no → some o ≠ some p → ((m.alloc vs).1.bind o (m.alloc vs).2).val p = m.val p := by
    intro o vs
    refine ⟨ok_set h vs o, fun hk => sep_set h (hs hk) vs o, ?_, fun p hp hne =>
      set_old h vs hp fun e => hne (by rw [e])⟩
    simp only [Mem.bind, (alloc_spec m vs).2.2.2.1]
    omega
  cases op with
  | new vs =>
    obtain ⟨a, b, c, d⟩ := hfresh vs
    exact ⟨a, b, c, fun o ho _ => d o ho⟩
  | cloneZero q =>
    obtain ⟨a, b, c, d⟩ := hfresh ((m.val q).map Val.zero)
    exact ⟨a, b, c, fun o ho _ => d o ho⟩
  | add f q r =>
    obtain ⟨a, b, c, d⟩ := hfresh (List.zipWith (Val.map₂ f) (m.val q) (m.val r))
    exact ⟨a, b, c, fun o ho _ => d o ho⟩
  | mul f q =>
    obtain ⟨a, b, c, d⟩ := hfresh ((m.val q).map (Val.map f))
    exact ⟨a, b, c, fun o ho _ => d o ho⟩
  | setValues q vs => exact hset q vs
  | clone q =>
    cases k with
    | copy =>
      obtain ⟨a, b, c, d⟩ := hfresh (m.val q)
      exact ⟨a, b, c, fun o ho _ => d o ho⟩
    | rebind =>
      refine ⟨?_, fun hk => absurd hk (by decide), ?_, ?_⟩
      · intro o ho a ha
        simp only [Mem.step, Mem.push] at ho ha ⊢
        by_cases hn : o = m.no
        · subst hn
          rw [Function.update_self] at ha
          exact h q he a ha
        · rw [Function.update_of_ne hn] at ha
          exact h o (by omega) a ha
      · simp only [Mem.step, Mem.push]; omega
      · intro o ho _
        refine val_congr ?_ fun _ _ => rfl
        simp only [Mem.step, Mem.push]
        exact Function.update_of_ne (Nat.ne_of_lt ho) _ _
  | unpack q vs =>
    cases k with
    | rebind => exact hset q vs
    | copy =>
      obtain ⟨s1, s2, s3, s4⟩ := store_spec m (m.obj q) vs
      refine ⟨?_, fun _ => ?_, ?_, ?_⟩
      · intro o ho a ha
        simp only [Mem.step] at ho ha ⊢
        rw [s4] at ho
        rw [s3] at ha
        rw [s2]
        exact h o ho a ha
      · intro o p a ho hp h1 h2
        simp only [Mem.step] at ho hp h1 h2
        rw [s4] at ho hp
        rw [s3] at h1 h2
        exact hs rfl o p a ho hp h1 h2
      · simp only [Mem.step]; omega
      · intro o ho hne
        refine val_congr (by simp only [Mem.step]; rw [s3]) fun a ha => ?_
        simp only [Mem.step]
        refine s1 a fun haq => hne ?_
        have := hs rfl q o a he ho haq ha
        simp only [Op.target, this]
  | assign q r =>
    cases k with
    | copy => exact absurd hp id
    | rebind =>
      refine ⟨?_, fun hk => absurd hk (by decide), Nat.le_refl _, ?_⟩
      · intro o ho a ha
        simp only [Mem.step, Mem.bind] at ho ha ⊢
        by_cases hn : o = q
        · subst hn
          rw [Function.update_self] at ha
          exact h r he.2 a ha
        · rw [Function.update_of_ne hn] at ha
          exact h o ho a ha
      · intro o ho hne
        refine val_congr ?_ fun _ _ => rfl
        simp only [Mem.step, Mem.bind]
        exact Function.update_of_ne (fun e => hne (by simp only [Op.target, e])) _ _
  | write o i xs => cases k <;> exact absurd hp id

/-- C42.  In every program that uses the public methods only, an object keeps its values unless
`set_values` or `unpack` is called on this very object: changing a clone never changes the original,
nor the other way round, whatever else happens in between. -/
theorem C42_no_interference {k : Kind} {m : Mem α} (h : Ok m) (hs : k = .copy → Sep m)
    (ops : List (Op α)) (hsens : Sensible k m ops) (hpub : ∀ op, op ∈ ops → op.Public k)
    (o : Nat) (ho : o < m.no) (ht : ∀ op, op ∈ ops → op.target ≠ some o) :
    (m.run k ops).val o = m.val o := by
  induction ops generalizing m with
  | nil => rfl
  | cons op ops ih =>
    obtain ⟨a, b, c, d⟩ := step_inv h hs hsens.1 (hpub op List.mem_cons_self)
    have := ih a b hsens.2 (fun x hx => hpub x (List.mem_cons_of_mem _ hx)) (by omega)
      (fun x hx => ht x (List.mem_cons_of_mem _ hx))
    show ((m.step k op).run k ops).val o = _
    rw [this]
    exact d o ho (ht op List.mem_cons_self)

/-- The hypotheses hold from the beginning of a program on. -/
theorem C42_invariant {k : Kind} {m : Mem α} (h : Ok m) (hs : k = .copy → Sep m)
    (ops : List (Op α)) (hsens : Sensible k m ops) (hpub : ∀ op, op ∈ ops → op.Public k) :
    Ok (m.run k ops) ∧ (k = .copy → Sep (m.run k ops)) := by
  induction ops generalizing m with
  | nil => exact ⟨h, hs⟩
  | cons op ops ih =>
    obtain ⟨a, b, c, d⟩ := step_inv h hs hsens.1 (hpub op List.mem_cons_self)
    exact ih a b hsens.2 fun x hx => hpub x (List.mem_cons_of_mem _ hx)

/-- The memory at the start of a program. -/
def empty : Mem α := ⟨fun _ => [], 0, fun _ => [], 0⟩

omit [Zero α] in
theorem empty_ok : Ok (empty : Mem α) ∧ Sep (empty : Mem α) :=
  ⟨fun _ ho => absurd ho (Nat.not_lt_zero _), fun _ _ _ ho => absurd ho (Nat.not_lt_zero _)⟩

/-- C42.  `clone` yields an object with the same values. -/
theorem C42_clone (k : Kind) (m : Mem α) (o : Nat) : (m.step k (.clone o)).val m.no = m.val o := by
  cases k with
  | rebind => simp only [Mem.step, Mem.val, Mem.push, Function.update_self]; rfl
  | copy => exact fresh_new m _

/-- C42.  `clone_zero` yields an object of the same shape with zeros only. -/
theorem C42_clone_zero (k : Kind) (m : Mem α) (o : Nat) :
    (m.step k (.cloneZero o)).val m.no = (m.val o).map fun
      | .arr xs => .arr (List.replicate xs.length 0)
      | .num _ => .num 0 := by
  show (m.fresh _).val m.no = _
  rw [fresh_new]
  refine List.map_congr_left fun v _ => ?_
  cases v <;> rfl

/-- C42.  The sum and the difference of two vectors are new objects: every number and every entry of every array is the sum
(difference) of the corresponding ones. -/
theorem C42_arithmetic (k : Kind) (m : Mem α) (f : α → α → α) (o p i : Nat) :
    (∀ xs ys, (m.val o)[i]? = some (.arr xs) → (m.val p)[i]? = some (.arr ys) → xs.length = ys.length →
      ∃ zs, ((m.step k (.add f o p)).val m.no)[i]? = some (.arr zs) ∧ zs.length = xs.length ∧
        ∀ (j : Nat) x y, xs[j]? = some x → ys[j]? = some y → zs[j]? = some (f x y)) ∧
    ∀ x y, (m.val o)[i]? = some (.num x) → (m.val p)[i]? = some (.num y) →
      ((m.step k (.add f o p)).val m.no)[i]? = some (.num (f x y)) := by
  have e : (m.step k (.add f o p)).val m.no = List.zipWith (Val.map₂ f) (m.val o) (m.val p) := fresh_new m _
  rw [e]
  refine ⟨fun xs ys h1 h2 hl => ⟨List.zipWith f xs ys, ?_, by simp [hl], fun j x y hx hy => ?_⟩, fun x y h1 h2 => ?_⟩
  · rw [List.getElem?_zipWith, h1, h2]; rfl
  · rw [List.getElem?_zipWith, hx, hy]
  · rw [List.getElem?_zipWith, h1, h2]; rfl

/-- C42.  So is the product with a number. -/
theorem C42_scaling (k : Kind) (m : Mem α) (f : α → α) (o i : Nat) :
    (∀ xs, (m.val o)[i]? = some (.arr xs) → ∃ zs, ((m.step k (.mul f o)).val m.no)[i]? = some (.arr zs) ∧
      zs.length = xs.length ∧ ∀ (j : Nat) x, xs[j]? = some x → zs[j]? = some (f x)) ∧
    ∀ x, (m.val o)[i]? = some (.num x) → ((m.step k (.mul f o)).val m.no)[i]? = some (.num (f x)) := by
  have e : (m.step k (.mul f o)).val m.no = (m.val o).map (Val.map f) := fresh_new m _
  rw [e]
  refine ⟨fun xs h1 => ⟨xs.map f, ?_, by simp, fun j x hx => ?_⟩, fun x h1 => ?_⟩
  · rw [List.getElem?_map, h1]; rfl
  · rw [List.getElem?_map, hx]; rfl
  · rw [List.getElem?_map, h1]; rfl

omit [Zero α] in
theorem store_val {m : Mem α} {fs : List (Field α)} {vs : List (Val α)}
    (hnd : (fs.filter fun f => match f with | .ref _ => true | .num _ => false).Nodup)
    (hsh : List.Forall₂ (fun f v => match f, v with
      | .ref _, .arr _ => True
      | .num x, .num y => x = y
      | _, _ => False) fs vs) :
    fs.map (Field.val (m.store fs vs)) = vs := by
  induction hsh generalizing m with
  | nil => rfl
  | @cons f v fs vs hfv hr ih =>
    cases f with
    | num x =>
      cases v with
      | num y =>
        subst hfv
        simp only [Mem.store, List.map_cons, Field.val]
        rw [ih (by simpa using hnd)]
      | arr xs => exact absurd hfv id
    | ref a =>
      cases v with
      | num y => exact absurd hfv id
      | arr xs =>
        rw [List.filter_cons_of_pos (by rfl), List.nodup_cons] at hnd
        obtain ⟨h1, h2⟩ := hnd
        simp only [Mem.store, List.map_cons]
        rw [ih h2]
        have hna : Field.ref a ∉ fs := fun hm => h1 (List.mem_filter.2 ⟨hm, rfl⟩)
        simp only [Field.val]
        rw [(store_spec { m with arr := Function.update m.arr a xs } fs vs).1 a hna]
        show Val.arr (Function.update m.arr a xs a) :: vs = _
        rw [Function.update_self]

/-- C42.  Unpacking the packed values of any object `p` of any process into an object `o` gives `o`
these values.  For the copying classes `o` must have the layout of `p`. -/
theorem C42_pack_unpack (k : Kind) (m m' : Mem α) (o p : Nat)
    (hk : k = .copy → (((m.obj o).filter fun f => match f with | .ref _ => true | .num _ => false).Nodup ∧
      List.Forall₂ (fun f v => match f, v with
        | .ref _, .arr _ => True
        | .num x, .num y => x = y
        | _, _ => False) (m.obj o) (m'.pack p))) :
    (m.step k (.unpack o (m'.pack p))).val o = m'.val p := by
  cases k with
  | rebind => exact set_new m _ o
  | copy =>
    obtain ⟨h1, h2⟩ := hk rfl
    show (m.store (m.obj o) (m'.pack p)).val o = _
    unfold Mem.val
    rw [(store_spec m (m.obj o) (m'.pack p)).2.2.1]
    exact store_val h1 h2

omit [Zero α] in
/-- C42.  For pairs of time points the values are restored; `dtau` is that of the receiver. -/
theorem C42_pair (u v : Pair α) :
    v.unpack u.pack = .ok { first := u.first, second := u.second, dtau := v.dtau } := rfl

/-- The hypotheses of `C42_arithmetic` and `C42_scaling`. -/
example (k : Kind) : ((empty.run k [.new [.arr [1, 2, (3 : Int)]], .new [.arr [4, 5, 6]]]).val 0)[0]? = some (.arr [1, 2, 3]) ∧
    ((empty.run k [.new [.arr [1, 2, (3 : Int)]], .new [.arr [4, 5, 6]]]).val 1)[0]? = some (.arr [4, 5, 6]) := by
  cases k <;> decide

/-- The two families on a concrete program: clone an object and give the clone other values. -/
example : ∀ k, (empty.run k [.new [.arr [1, 2, (3 : Int)]], .clone 0,
    .unpack 1 [.arr [4, 5, 6]]]).val 0 = [.arr [1, 2, 3]] ∧
    (empty.run k [.new [.arr [1, 2, (3 : Int)]], .clone 0,
    .unpack 1 [.arr [4, 5, 6]]]).val 1 = [.arr [4, 5, 6]] := by
  intro k; cases k <;> decide

example (k : Kind) : Sensible k (empty : Mem Int) [.new [.arr [1, 2, 3]], .clone 0,
    .unpack 1 [.arr [4, 5, 6]]] := by
  cases k <;> exact ⟨trivial, (by decide : 0 < 1), (by decide : 1 < 2), trivial⟩

/-- C42.  The restriction to public methods is needed: with a rebinding class an in-place change of the
array obtained from a clone changes the original. -/
theorem C42_inplace_alias :
    (empty.run .rebind [.new [.arr [1, 2, (3 : Int)]], .clone 0, .write 1 0 [4, 5, 6]]).val 0 =
      [.arr [4, 5, 6]] := by decide

/-- C42.  And with a copying class `q.set_values(p.get_values())` makes a later `unpack` on `q` change
`p`. -/
theorem C42_shared_unpack :
    (empty.run .copy [.new [.arr [1, (2 : Int)]], .new [.arr [0, 0]], .assign 1 0,
      .unpack 1 [.arr [4, 5]]]).val 0 = [.arr [4, 5]] := by decide

end Pymgrit.Heap
