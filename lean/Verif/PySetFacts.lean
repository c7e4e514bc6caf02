import Verif.PySet
import Verif.Visit
import Mathlib.Data.Nat.ModEq
import Mathlib.Data.Finset.Card
import Mathlib.Data.Fintype.EquivFin
import Mathlib.Algebra.Order.Ring.Nat
import Mathlib.Data.Nat.Prime.Basic
import Mathlib.Tactic.NormNum.GCD
import Mathlib.Tactic.Ring
import Mathlib.Tactic.Linarith

/-!
# Facts about CPython's hash tables

The probe loop ends (the map `i ↦ 5 i + 1` runs through all slots), tables hold exactly the inserted keys,
and a key sits at its value modulo the table size unless two keys agree modulo that size.
-/

namespace Pymgrit.PySet

/-! ### The probe sequence visits every slot -/

theorem five_pow (e : Nat) : ∃ q, 5 ^ (2 ^ e) = 1 + 2 ^ (e + 2) * (2 * q + 1) := by
  induction e with
  | zero => exact ⟨0, by norm_num⟩
  | succ e ih =>
    obtain ⟨q, h⟩ := ih
    refine ⟨q + 2 ^ e * (2 * q + 1) ^ 2, ?_⟩
    rw [pow_succ 2 e, pow_mul, h]
    ring

theorem pow_five_dvd (e : Nat) : ∀ d, 5 ^ d ≡ 1 [MOD 2 ^ (e + 2)] → 2 ^ e ∣ d := by
  induction e with
  | zero => intro d _; simp
  | succ e ih =>
    intro d hd
    have h1 : 5 ^ d ≡ 1 [MOD 2 ^ (e + 2)] :=
      hd.of_dvd (pow_dvd_pow 2 (by omega))
    obtain ⟨m, rfl⟩ := ih d h1
    rcases Nat.even_or_odd' m with ⟨n, rfl | rfl⟩
    · exact ⟨n, by ring⟩
    · exfalso
      obtain ⟨q, hq⟩ := five_pow e
      obtain ⟨q', hq'⟩ := five_pow (e + 1)
      have h2 : 5 ^ (2 ^ (e + 1) * n) ≡ 1 [MOD 2 ^ (e + 1 + 2)] := by
        rw [pow_mul]
        have : 5 ^ 2 ^ (e + 1) ≡ 1 [MOD 2 ^ (e + 1 + 2)] := by
          rw [hq']
          unfold Nat.ModEq
          rw [Nat.add_mul_mod_self_left]
        simpa using this.pow n
      have h3 : 5 ^ (2 ^ e * (2 * n + 1)) = 5 ^ (2 ^ (e + 1) * n) * 5 ^ 2 ^ e := by
        rw [← pow_add]; congr 1; ring
      rw [h3, hq] at hd
      have h4 := (h2.mul_right (1 + 2 ^ (e + 2) * (2 * q + 1))).symm.trans hd
      rw [one_mul] at h4
      have h5 : 1 + 2 ^ (e + 2) * (2 * q + 1) = 1 + 2 ^ (e + 2) + 2 ^ (e + 1 + 2) * q := by ring
      rw [h5] at h4
      unfold Nat.ModEq at h4
      rw [Nat.add_mul_mod_self_left] at h4
      have hp : 0 < 2 ^ e := Nat.pos_of_ne_zero (by positivity)
      have e2 : 2 ^ (e + 2) = 4 * 2 ^ e := by ring
      have e3 : 2 ^ (e + 1 + 2) = 8 * 2 ^ e := by ring
      rw [e2, e3, Nat.mod_eq_of_lt (by omega), Nat.mod_eq_of_lt (by omega)] at h4
      omega

theorem orbit_eq (e : Nat) (x k : Nat) :
    4 * ((fun i => (i * 5 + 1) % 2 ^ e)^[k] x) + 1 ≡ 5 ^ k * (4 * x + 1) [MOD 2 ^ (e + 2)] := by
  induction k with
  | zero => simp; rfl
  | succ k ih =>
    rw [Function.iterate_succ_apply']
    set y := (fun i => (i * 5 + 1) % 2 ^ e)^[k] x
    have h1 : 4 * ((y * 5 + 1) % 2 ^ e) ≡ 4 * (y * 5 + 1) [MOD 2 ^ (e + 2)] := by
      have : 2 ^ (e + 2) = 4 * 2 ^ e := by ring
      rw [this]
      exact (Nat.mod_modEq _ _).mul_left' 4
    have h2 : 4 * ((y * 5 + 1) % 2 ^ e) + 1 ≡ 5 * (4 * y + 1) [MOD 2 ^ (e + 2)] := by
      have := h1.add_right 1
      have e1 : 4 * (y * 5 + 1) + 1 = 5 * (4 * y + 1) := by ring
      rwa [e1] at this
    refine h2.trans ?_
    have := ih.mul_left 5
    have e2 : 5 * (5 ^ k * (4 * x + 1)) = 5 ^ (k + 1) * (4 * x + 1) := by ring
    rwa [e2] at this

theorem orbit_inj (e x a b : Nat) (hab : a < b) (hb : b < 2 ^ e)
    (h : (fun i => (i * 5 + 1) % 2 ^ e)^[a] x = (fun i => (i * 5 + 1) % 2 ^ e)^[b] x) : False := by
  have h1 := (orbit_eq e x a).symm.trans (h ▸ orbit_eq e x b)
  have h2 : 5 ^ b * (4 * x + 1) = 5 ^ (b - a) * (5 ^ a * (4 * x + 1)) := by
    rw [← mul_assoc, ← pow_add, Nat.sub_add_cancel hab.le]
  rw [h2] at h1
  have hc : Nat.Coprime (2 ^ (e + 2)) (5 ^ a * (4 * x + 1)) := by
    apply Nat.Coprime.pow_left
    apply Nat.Coprime.mul_right
    · exact Nat.Coprime.pow_right a (by norm_num)
    · rw [Nat.Coprime, Nat.gcd_rec]
      have : (4 * x + 1) % 2 = 1 := by omega
      rw [this, Nat.gcd_one_left]
  have h3 : 5 ^ (b - a) ≡ 1 [MOD 2 ^ (e + 2)] := by
    refine (Nat.ModEq.cancel_right_of_coprime hc ?_).symm
    rw [one_mul]
    exact h1
  have := Nat.le_of_dvd (by omega) (pow_five_dvd e _ h3)
  omega

theorem orbit_surj (e x j : Nat) (hx : x < 2 ^ e) (hj : j < 2 ^ e) :
    ∃ k, k < 2 ^ e ∧ (fun i => (i * 5 + 1) % 2 ^ e)^[k] x = j := by
  have hp : 0 < 2 ^ e := Nat.pos_of_ne_zero (by positivity)
  let f : Fin (2 ^ e) → Fin (2 ^ e) := fun k => ⟨(fun i => (i * 5 + 1) % 2 ^ e)^[k] x, by
    cases k with
    | mk k hk =>
      cases k with
      | zero => exact hx
      | succ k =>
        show (fun i => (i * 5 + 1) % 2 ^ e)^[k + 1] x < 2 ^ e
        rw [Function.iterate_succ_apply']
        exact Nat.mod_lt _ hp⟩
  have hinj : Function.Injective f := by
    intro a b hab
    have hab' : (fun i => (i * 5 + 1) % 2 ^ e)^[a] x = (fun i => (i * 5 + 1) % 2 ^ e)^[b] x :=
      congrArg Fin.val hab
    rcases Nat.lt_trichotomy a b with h | h | h
    · exact (orbit_inj e x a b h b.2 hab').elim
    · exact Fin.ext h
    · exact (orbit_inj e x b a h a.2 hab'.symm).elim
  obtain ⟨k, hk⟩ := Finite.injective_iff_surjective.1 hinj ⟨j, hj⟩
  exact ⟨k, k.2, congrArg Fin.val hk⟩

theorem find_start {i n : Nat} (hn : 0 < n) {p : Nat → Bool} (h : p i = true) :
    (List.range' i n).find? p = some i := by
  obtain ⟨n, rfl⟩ : ∃ k, n = k + 1 := ⟨n - 1, by omega⟩
  rw [List.range'_succ, List.find?_cons_of_pos h]

theorem findSlot_zero (t : Tab) (ok : Option Nat → Bool) (e : Nat) (he : t.length = 2 ^ e) (fuel : Nat) :
    ∀ i, (∃ k, k < fuel ∧ (t[(fun i => (i * 5 + 1) % 2 ^ e)^[k] i]?.map ok).getD false = true) →
      (findSlot t ok fuel i 0).isSome := by
  induction fuel with
  | zero => rintro i ⟨k, hk, -⟩; omega
  | succ fuel ih =>
    rintro i ⟨k, hk, h⟩
    unfold findSlot
    cases hf : (List.range' i (if i + 9 ≤ t.length - 1 then 10 else 1)).find?
        (fun j => (t[j]?.map ok).getD false) with
    | some j => rfl
    | none =>
      cases k with
      | zero =>
        rw [find_start (by split <;> omega) (by exact h)] at hf
        cases hf
      | succ k =>
        simp only [Nat.zero_div, Nat.add_zero, he]
        exact ih _ ⟨k, by omega, h⟩

theorem findSlot_isSome (t : Tab) (ok : Option Nat → Bool) (e : Nat) (he : t.length = 2 ^ e)
    (j : Nat) (hj : j < t.length) (h : (t[j]?.map ok).getD false = true) (fuel : Nat) :
    ∀ i p, i < t.length → p + t.length ≤ fuel → (findSlot t ok fuel i p).isSome := by
  induction fuel with
  | zero => intro i p hi hp; omega
  | succ fuel ih =>
    intro i p hi hp
    by_cases hp0 : p = 0
    · subst hp0
      obtain ⟨k, hk, hkj⟩ := orbit_surj e i j (he ▸ hi) (he ▸ hj)
      exact findSlot_zero t ok e he (fuel + 1) i ⟨k, by omega, by rw [hkj]; exact h⟩
    · unfold findSlot
      cases hf : (List.range' i (if i + 9 ≤ t.length - 1 then 10 else 1)).find?
          (fun j => (t[j]?.map ok).getD false) with
      | some j => rfl
      | none =>
        have : p / 32 < p := Nat.div_lt_self (by omega) (by omega)
        exact ih _ _ (Nat.mod_lt _ (by omega)) (by omega)

theorem findSlot_some (t : Tab) (ok : Option Nat → Bool) (fuel : Nat) :
    ∀ i p j, findSlot t ok fuel i p = some j → (t[j]?.map ok).getD false = true := by
  induction fuel with
  | zero => intro i p j h; cases h
  | succ fuel ih =>
    intro i p j h
    unfold findSlot at h
    cases hf : (List.range' i (if i + 9 ≤ t.length - 1 then 10 else 1)).find?
        (fun j => (t[j]?.map ok).getD false) with
    | some j' =>
      rw [hf] at h
      cases h
      exact List.find?_some (p := fun j => (t[j]?.map ok).getD false) hf
    | none =>
      rw [hf] at h
      exact ih _ _ _ h

/-- The probe loop ends at a slot satisfying the test if there is one. -/
theorem slotFor_free (t : Tab) (ok : Option Nat → Bool) (e : Nat) (he : t.length = 2 ^ e)
    (j : Nat) (s : Option Nat) (hj : t[j]? = some s) (h : ok s = true) (x : Nat) :
    ∃ j' s', slotFor t ok x = some j' ∧ t[j']? = some s' ∧ ok s' = true := by
  have hjl : j < t.length := (List.getElem?_eq_some_iff.1 hj).1
  have h1 := findSlot_isSome t ok e he j hjl (by rw [hj]; exact h) (x + t.length + 1) (x % t.length) x
    (Nat.mod_lt _ (by omega)) (by omega)
  obtain ⟨j', hj'⟩ := Option.isSome_iff_exists.1 h1
  have h2 := findSlot_some t ok _ _ _ _ hj'
  cases hs : t[j']? with
  | none => rw [hs] at h2; cases h2
  | some s' =>
    rw [hs] at h2
    exact ⟨j', s', hj', hs, h2⟩

theorem slotFor_home (t : Tab) (ok : Option Nat → Bool) (x : Nat) (s : Option Nat)
    (hj : t[x % t.length]? = some s) (h : ok s = true) : slotFor t ok x = some (x % t.length) := by
  unfold slotFor findSlot
  rw [find_start (by split <;> omega) (by rw [hj]; exact h)]

/-! ### Contents and places -/

/-- No two keys agree modulo `M`. -/
def Apart (M : Nat) (xs : List Nat) : Prop := xs.Pairwise fun x y => x % M ≠ y % M

theorem Apart.perm {M : Nat} {xs ys : List Nat} (h : Apart M xs) (p : xs.Perm ys) : Apart M ys :=
  (p.pairwise_iff (fun {x y} hxy => fun e => hxy e.symm)).1 h

theorem Apart.sublist {M : Nat} {xs ys : List Nat} (h : Apart M ys) (p : xs.Sublist ys) : Apart M xs :=
  List.Pairwise.sublist p h

/-- A table of a power-of-two size holding exactly the keys `xs`, each at its value modulo the size if all
these places are different. -/
structure Holds (t : Tab) (xs : List Nat) : Prop where
  size : ∃ e, 3 ≤ e ∧ t.length = 2 ^ e
  perm : (keys t).Perm xs
  nodup : xs.Nodup
  home : Apart t.length xs → ∀ i x, t[i]? = some (some x) → i = x % t.length

theorem mem_keys {t : Tab} {x : Nat} : x ∈ keys t ↔ ∃ i : Nat, t[i]? = some (some x) := by
  unfold keys
  rw [List.mem_filterMap]
  constructor
  · rintro ⟨s, hs, e⟩
    obtain ⟨i, hi⟩ := List.mem_iff_getElem?.1 hs
    exact ⟨i, by rw [hi]; exact congrArg some e⟩
  · rintro ⟨i, hi⟩
    exact ⟨some x, List.mem_iff_getElem?.2 ⟨i, hi⟩, rfl⟩

theorem exists_free {t : Tab} (h : (keys t).length < t.length) : ∃ j : Nat, t[j]? = some none := by
  induction t with
  | nil => cases h
  | cons s t ih =>
    cases s with
    | none => exact ⟨0, rfl⟩
    | some x =>
      obtain ⟨j, hj⟩ := ih (by
        have : keys (some x :: t) = x :: keys t := rfl
        rw [this] at h
        simpa using h)
      exact ⟨j + 1, hj⟩

theorem keys_set {t : Tab} {j x : Nat} (h : t[j]? = some none) :
    (keys (t.set j (some x))).Perm (keys t ++ [x]) := by
  induction t generalizing j with
  | nil => cases h
  | cons s t ih =>
    cases j with
    | zero =>
      have hs : s = none := by simpa using h
      subst hs
      show (x :: keys t).Perm (keys t ++ [x])
      exact (List.perm_append_comm (l₁ := keys t) (l₂ := [x])).symm
    | succ j =>
      have := ih (j := j) (by simpa using h)
      cases s with
      | none => exact this
      | some y => exact this.cons y

theorem Holds.len {t : Tab} {xs : List Nat} (h : Holds t xs) : (keys t).length = xs.length := h.perm.length_eq

theorem Holds.pos {t : Tab} {xs : List Nat} (h : Holds t xs) : 0 < t.length := by
  obtain ⟨e, -, he⟩ := h.size
  rw [he]; exact Nat.pos_of_ne_zero (by positivity)

theorem Holds.home_free {t : Tab} {xs : List Nat} {x : Nat} (h : Holds t xs) (ha : Apart t.length (xs ++ [x])) :
    t[x % t.length]? = some none := by
  have hlt := Nat.mod_lt x h.pos
  rw [List.getElem?_eq_getElem hlt]
  congr 1
  by_contra hne
  obtain ⟨y, hy⟩ := Option.ne_none_iff_exists'.1 hne
  have hy' : t[x % t.length]? = some (some y) := by rw [List.getElem?_eq_getElem hlt, hy]
  have h1 := h.home (ha.sublist (List.sublist_append_left _ _)) _ _ hy'
  have h2 : y ∈ xs := h.perm.mem_iff.1 (mem_keys.2 ⟨_, hy'⟩)
  have := (List.pairwise_append.1 ha).2.2 y h2 x (by simp)
  exact this h1.symm

theorem Holds.set {t : Tab} {xs : List Nat} {x j : Nat} (h : Holds t xs) (hx : x ∉ xs)
    (hj : t[j]? = some none) (hh : Apart t.length (xs ++ [x]) → j = x % t.length) :
    Holds (t.set j (some x)) (xs ++ [x]) where
  size := by simpa using h.size
  perm := (keys_set hj).trans (h.perm.append_right [x])
  nodup := by
    rw [List.nodup_append]
    exact ⟨h.nodup, by simp, by
      intro a ha b hb e
      rw [List.mem_singleton] at hb
      exact hx (hb ▸ e ▸ ha)⟩
  home := by
    rw [List.length_set]
    intro ha i y hy
    rw [List.getElem?_set] at hy
    split at hy
    · rename_i e
      split at hy
      · cases hy
        rw [← e]; exact hh ha
      · cases hy
    · exact h.home (ha.sublist (List.sublist_append_left _ _)) i y hy

theorem Holds.insertClean {t : Tab} {xs : List Nat} {x : Nat} (h : Holds t xs) (hx : x ∉ xs)
    (hl : xs.length < t.length) : Holds (insertClean t x) (xs ++ [x]) := by
  obtain ⟨e, he3, he⟩ := h.size
  obtain ⟨j, hj⟩ := exists_free (t := t) (by rw [h.len]; exact hl)
  obtain ⟨j', s', h1, h2, h3⟩ := slotFor_free t (fun s => s.isNone) e he j none hj rfl x
  have hs : s' = none := by
    cases s' with
    | none => rfl
    | some y => cases h3
  subst hs
  unfold PySet.insertClean
  rw [h1]
  refine h.set hx h2 fun ha => ?_
  have := slotFor_home t (fun s => s.isNone) x none (h.home_free ha) rfl
  rw [h1] at this
  exact Option.some.inj this

theorem insertClean_length (t : Tab) (x : Nat) : (insertClean t x).length = t.length := by
  unfold insertClean
  split <;> simp

theorem Holds.insertAll {xs : List Nat} (ys : List Nat) : ∀ {t : Tab} (_ : Holds t xs)
    (_ : (xs ++ ys).Nodup) (_ : (xs ++ ys).length ≤ t.length),
    Holds (ys.foldl PySet.insertClean t) (xs ++ ys) ∧ (ys.foldl PySet.insertClean t).length = t.length := by
  induction ys generalizing xs with
  | nil => intro t h _ _; simpa using h
  | cons y ys ih =>
    intro t h hn hl
    have e : xs ++ y :: ys = (xs ++ [y]) ++ ys := by simp
    have hy : y ∉ xs := fun hm => (List.nodup_append.1 hn).2.2 y hm y (by simp) rfl
    have h1 := h.insertClean hy (by simp at hl; omega)
    have := ih h1 (e ▸ hn) (by rw [insertClean_length, ← e]; exact hl)
    rw [insertClean_length, ← e] at this
    exact this

theorem grow_spec (f m : Nat) : ∀ n e, 3 ≤ e → n = 2 ^ e → m < n * 2 ^ f →
    (∃ e', 3 ≤ e' ∧ grow f m n = 2 ^ e') ∧ m < grow f m n := by
  induction f with
  | zero => intro n e he hn h; exact ⟨⟨e, he, hn⟩, by simpa [grow] using h⟩
  | succ f ih =>
    intro n e he hn h
    unfold grow
    split
    · exact ih (2 * n) (e + 1) (by omega) (by rw [hn]; ring) (by rw [pow_succ] at h; linarith [h])
    · rename_i hlt
      exact ⟨⟨e, he, hn⟩, by omega⟩

theorem sized_spec (m : Nat) : Holds (sized m) [] ∧ m < (sized m).length ∧ 8 ≤ (sized m).length := by
  have h0 : m < 8 * 2 ^ (m + 1) := by
    have := Nat.lt_two_pow_self (n := m + 1)
    omega
  obtain ⟨⟨e, he, hs⟩, h1⟩ := grow_spec (m + 1) m 8 3 (by omega) (by norm_num) h0
  have hl : (sized m).length = grow (m + 1) m 8 := by simp [sized]
  refine ⟨⟨⟨e, he, by rw [hl, hs]⟩, ?_, by simp, ?_⟩, by rw [hl]; exact h1, ?_⟩
  · have : keys (sized m) = [] := by
      unfold keys sized
      rw [List.filterMap_eq_nil_iff]
      intro a ha
      rw [List.eq_of_mem_replicate ha]; rfl
    rw [this]
  · intro _ i x hx
    exfalso
    have := List.mem_iff_getElem?.2 ⟨i, hx⟩
    have := List.eq_of_mem_replicate this
    cases this
  · rw [hl, hs]
    calc 8 = 2 ^ 3 := by norm_num
      _ ≤ 2 ^ e := Nat.pow_le_pow_right (by omega) he

theorem Holds.resize {t : Tab} {xs : List Nat} (h : Holds t xs) {m : Nat} (hm : xs.length ≤ m) :
    Holds (resize t m) xs ∧ m < (PySet.resize t m).length ∧ 8 ≤ (PySet.resize t m).length := by
  obtain ⟨h0, h1, h2⟩ := sized_spec m
  have hk : (keys t).Nodup := h.perm.nodup_iff.2 h.nodup
  obtain ⟨h3, h4⟩ := h0.insertAll (keys t) (by simpa using hk) (by simp [h.len]; omega)
  unfold PySet.resize
  rw [h4]
  refine ⟨⟨h3.size, ?_, h.nodup, ?_⟩, h1, h2⟩
  · exact h3.perm.trans (by simpa using h.perm)
  · intro ha
    exact h3.home (by simpa using ha.perm h.perm.symm)

/-- A set as it is between operations: less than three fifths of the slots are filled. -/
structure IsSet (t : Tab) (xs : List Nat) : Prop extends Holds t xs where
  load : xs.length * 5 < (t.length - 1) * 3

theorem isSet_empty : IsSet empty [] := by
  have h : empty = sized 0 := rfl
  refine ⟨h ▸ (sized_spec 0).1, by decide⟩

theorem IsSet.add {t : Tab} {xs : List Nat} {x : Nat} (h : IsSet t xs) (hx : x ∉ xs) :
    IsSet (add t x) (xs ++ [x]) := by
  obtain ⟨e, he3, he⟩ := h.size
  have hload := h.load
  obtain ⟨j, hj⟩ := exists_free (t := t) (by rw [h.len]; omega)
  obtain ⟨j', s', h1, h2, h3⟩ := slotFor_free t (fun s => s.isNone || s == some x) e he j none hj rfl x
  have hs : s' = none := by
    cases s' with
    | none => rfl
    | some y =>
      have hy : y = x := by simpa using h3
      subst hy
      exact absurd (h.perm.mem_iff.1 (mem_keys.2 ⟨_, h2⟩)) hx
  subst hs
  have h4 : Holds (t.set j' (some x)) (xs ++ [x]) := by
    refine h.toHolds.set hx h2 fun ha => ?_
    have := slotFor_home t (fun s => s.isNone || s == some x) x none (h.home_free ha) rfl
    rw [h1] at this
    exact Option.some.inj this
  unfold PySet.add
  rw [h1]
  dsimp only
  rw [if_neg (by rw [h2]; simp), h4.len]
  split
  · rename_i hlt
    exact ⟨h4, by rw [List.length_set]; exact hlt⟩
  · have hw : (xs ++ [x]).length * 2 ≤ want (xs ++ [x]).length := by
      unfold want; split <;> omega
    obtain ⟨h5, h6, h7⟩ := h4.resize (m := want (xs ++ [x]).length) (by omega)
    exact ⟨h5, by omega⟩

theorem IsSet.addAll {xs : List Nat} (ys : List Nat) : ∀ {t : Tab} (_ : IsSet t xs)
    (_ : (xs ++ ys).Nodup), IsSet (ys.foldl PySet.add t) (xs ++ ys) := by
  induction ys generalizing xs with
  | nil => intro t h _; simpa using h
  | cons y ys ih =>
    intro t h hn
    have e : xs ++ y :: ys = (xs ++ [y]) ++ ys := by simp
    have hy : y ∉ xs := fun hm => (List.nodup_append.1 hn).2.2 y hm y (by simp) rfl
    have := ih (h.add hy) (e ▸ hn)
    rw [← e] at this
    exact this

theorem isSet_ofList {xs : List Nat} (hn : xs.Nodup) : IsSet (ofList xs) xs := by
  have := isSet_empty.addAll xs (by simpa using hn)
  rwa [List.nil_append] at this

/-- Iteration order of a table whose keys are all at home: ascending modulo the size. -/
theorem Holds.ascending {t : Tab} {xs : List Nat} (h : Holds t xs) (ha : Apart t.length xs) :
    (keys t).Pairwise fun x y => x % t.length < y % t.length := by
  have key : ∀ (s : Tab) (o : Nat), (∀ i x, s[i]? = some (some x) → o + i = x % t.length) →
      (keys s).Pairwise fun x y => x % t.length < y % t.length := by
    intro s
    induction s with
    | nil => intro o _; exact List.Pairwise.nil
    | cons a s ih =>
      intro o ho
      have hs : ∀ i x, s[i]? = some (some x) → (o + 1) + i = x % t.length := by
        intro i x hx
        have := ho (i + 1) x (by simpa using hx)
        omega
      cases a with
      | none => exact ih (o + 1) hs
      | some y =>
        show (y :: keys s).Pairwise _
        refine List.Pairwise.cons ?_ (ih (o + 1) hs)
        intro z hz
        obtain ⟨i, hi⟩ := mem_keys.1 hz
        have h1 := ho 0 y rfl
        have h2 := hs i z hi
        omega
  exact key t 0 fun i x hx => by rw [Nat.zero_add]; exact h.home ha i x hx

theorem split_filter {α : Type} (p : α → Bool) (l : List α)
    (h : l.Pairwise fun x y => p y = true → p x = true) :
    l = l.filter p ++ l.filter fun x => !p x := by
  induction l with
  | nil => rfl
  | cons a l ih =>
    obtain ⟨h1, h2⟩ := List.pairwise_cons.1 h
    by_cases ha : p a = true
    · rw [List.filter_cons_of_pos ha, List.filter_cons_of_neg (by simp [ha]), List.cons_append, ← ih h2]
    · have : l.filter p = [] := by
        rw [List.filter_eq_nil_iff]
        intro y hy hpy
        exact ha (h1 y hy hpy)
      rw [List.filter_cons_of_neg ha, List.filter_cons_of_pos (by simp [ha]), this, List.nil_append]
      congr 1
      have := ih h2
      rw [‹l.filter p = []›, List.nil_append] at this
      exact this

/-- Keys ascending modulo `M` and spread over less than `M`: a rotation of the ascending order. -/
theorem rotation {M lo : Nat} {ks : List Nat} (hM : 0 < M)
    (h : ks.Pairwise fun x y => x % M < y % M) (hb : ∀ x ∈ ks, lo ≤ x ∧ x < lo + M) :
    ∃ a b, ks = a ++ b ∧ (b ++ a).Pairwise (· < ·) := by
  have hd : ∀ x ∈ ks, x / M = lo / M ∨ x / M = lo / M + 1 := by
    intro x hx
    obtain ⟨h1, h2⟩ := hb x hx
    have e1 := Nat.div_le_div_right (c := M) h1
    have e2 : x / M ≤ (lo + M) / M := Nat.div_le_div_right (c := M) h2.le
    rw [Nat.add_div_right _ hM] at e2
    omega
  have hx : ∀ x, M * (x / M) + x % M = x := fun x => Nat.div_add_mod x M
  have hl := hx lo
  have hlm := Nat.mod_lt lo hM
  have hhi : ∀ x ∈ ks, x / M = lo / M + 1 → x % M < lo % M := by
    intro x hxm e
    have h1 := hx x
    rw [e, Nat.mul_add, Nat.mul_one] at h1
    have := (hb x hxm).2
    omega
  have hlo : ∀ x ∈ ks, x / M = lo / M → lo % M ≤ x % M := by
    intro x hxm e
    have h1 := hx x
    rw [e] at h1
    have := (hb x hxm).1
    omega
  have hsp := split_filter (fun x => decide (x / M = lo / M + 1)) ks (by
    refine List.Pairwise.imp_of_mem ?_ h
    intro x y hxm hym hxy hy
    rw [decide_eq_true_eq] at hy ⊢
    have := hhi y hym hy
    rcases hd x hxm with e | e
    · have := hlo x hxm e
      omega
    · exact e)
  refine ⟨_, _, hsp, ?_⟩
  rw [List.pairwise_append]
  have same : ∀ q : Nat, ∀ x y, x / M = q → y / M = q → x % M < y % M → x < y := by
    intro q x y e1 e2 hlt
    have h1 := hx x
    have h2 := hx y
    rw [e1] at h1
    rw [e2] at h2
    omega
  refine ⟨?_, ?_, ?_⟩
  · refine List.Pairwise.imp_of_mem ?_ (h.filter _)
    intro x y hxm hym hlt
    obtain ⟨a1, a2⟩ := List.mem_filter.1 hxm
    obtain ⟨b1, b2⟩ := List.mem_filter.1 hym
    simp only [Bool.not_eq_true', decide_eq_false_iff_not] at a2 b2
    have := hd x a1
    have := hd y b1
    exact same (lo / M) x y (by omega) (by omega) hlt
  · refine List.Pairwise.imp_of_mem ?_ (h.filter _)
    intro x y hxm hym hlt
    obtain ⟨a1, a2⟩ := List.mem_filter.1 hxm
    obtain ⟨b1, b2⟩ := List.mem_filter.1 hym
    rw [decide_eq_true_eq] at a2 b2
    exact same (lo / M + 1) x y a2 b2 hlt
  · intro x hxm y hym
    obtain ⟨a1, a2⟩ := List.mem_filter.1 hxm
    obtain ⟨b1, b2⟩ := List.mem_filter.1 hym
    simp only [Bool.not_eq_true', decide_eq_false_iff_not] at a2
    rw [decide_eq_true_eq] at b2
    have e1 : x / M = lo / M := by have := hd x a1; omega
    have h1 := hx x
    have h2 := hx y
    rw [e1] at h1
    rw [b2, Nat.mul_add, Nat.mul_one] at h2
    have := Nat.mod_lt x hM
    omega

theorem apart_of_span {M lo : Nat} {xs : List Nat} (hn : xs.Nodup)
    (hb : ∀ x ∈ xs, lo ≤ x ∧ x < lo + M) : Apart M xs := by
  refine List.Pairwise.imp_of_mem ?_ hn
  intro x y hx hy hne e
  have h1 := hb x hx
  have h2 := hb y hy
  rcases Nat.lt_or_gt_of_ne hne with hlt | hlt
  · have : M ∣ y - x := (Nat.modEq_iff_dvd' hlt.le).1 e
    have := Nat.le_of_dvd (by omega) this
    omega
  · have : M ∣ x - y := (Nat.modEq_iff_dvd' hlt.le).1 e.symm
    have := Nat.le_of_dvd (by omega) this
    omega

/-- Keys spread over less than the table size are iterated in a rotation of the ascending order. -/
theorem Holds.rotated {t : Tab} {xs : List Nat} (h : Holds t xs) {lo : Nat}
    (hb : ∀ x ∈ xs, lo ≤ x ∧ x < lo + t.length) :
    ∃ a b, keys t = a ++ b ∧ (b ++ a).Pairwise (· < ·) :=
  rotation h.pos (h.ascending (apart_of_span h.nodup hb)) fun x hx => hb x (h.perm.mem_iff.1 hx)

theorem Holds.copy {t : Tab} {xs : List Nat} (h : IsSet t xs) :
    Holds (copy t) xs ∧ xs.length < (PySet.copy t).length := by
  have hload := h.load
  unfold PySet.copy
  dsimp only
  rw [h.len]
  generalize ht0 : (if 21 ≤ xs.length * 5 then sized (xs.length * 2) else empty) = t0
  split
  · exact ⟨h.toHolds, by omega⟩
  · have hk : (keys t).Nodup := h.perm.nodup_iff.2 h.nodup
    have hsz : ∀ t0 : Tab, Holds t0 [] → xs.length < t0.length →
        Holds ((keys t).foldl PySet.insertClean t0) xs ∧
          xs.length < ((keys t).foldl PySet.insertClean t0).length := by
      intro t0 h0 hl
      obtain ⟨h3, h4⟩ := h0.insertAll (keys t) (by simpa using hk) (by simp [h.len]; omega)
      rw [h4]
      refine ⟨⟨h3.size, h3.perm.trans (by simpa using h.perm), h.nodup, fun ha => ?_⟩, hl⟩
      exact h3.home (by simpa using ha.perm h.perm.symm)
    subst ht0
    split
    · obtain ⟨h0, h1, -⟩ := sized_spec (xs.length * 2)
      exact hsz _ h0 (by omega)
    · rename_i hlt
      exact hsz _ isSet_empty.toHolds (by
        show xs.length < 8
        omega)

theorem keys_filter (t : Tab) (p : Nat → Bool) :
    keys (t.map fun s => s.filter p) = (keys t).filter p := by
  unfold keys
  rw [List.filterMap_map, List.filter_filterMap]
  congr 1

theorem Holds.remove {t : Tab} {xs : List Nat} (h : Holds t xs) (ha : Apart t.length xs) (p : Nat → Bool) :
    Holds (t.map fun s => s.filter p) (xs.filter p) where
  size := by simpa using h.size
  perm := by rw [keys_filter]; exact h.perm.filter p
  nodup := h.nodup.filter p
  home := by
    intro _ i x hx
    rw [List.length_map]
    rw [List.getElem?_map] at hx
    cases hs : t[i]? with
    | none => rw [hs] at hx; cases hx
    | some s =>
      rw [hs] at hx
      have hx' : s.filter p = some x := by simpa using hx
      rw [Option.filter_eq_some_iff] at hx'
      exact h.home ha i x (by rw [hs, hx'.1])

end Pymgrit.PySet
