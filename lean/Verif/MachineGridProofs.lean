import Verif.MachineGrid
import Verif.DoubleProofs
import Verif.PropsSetup
import Mathlib.Data.List.Sort

/-!
# Helper lemmas on the grids of the induction machine experiments
-/

namespace Pymgrit.MachineGrid

open Double

theorem rne_int (z : ℤ) : rne (z : ℚ) = z := by
  simp [rne]

/-- Integers below `2 ^ 53` are doubles. -/
theorem rnd_int {z : ℤ} (hz : |z| < 2 ^ 53) : rnd (z : ℚ) = z := by
  by_cases h0 : z = 0
  · simp [h0, rnd_zero]
  have hx : (z : ℚ) ≠ 0 := by exact_mod_cast h0
  have hpos : 0 < |(z : ℚ)| := abs_pos.mpr hx
  have hlog : Int.log 2 |(z : ℚ)| < 53 := by
    refine (Int.lt_zpow_iff_log_lt (b := 2) (by norm_num) hpos).mp ?_
    have : |(z : ℚ)| < 2 ^ 53 := by exact_mod_cast hz
    exact_mod_cast this
  obtain ⟨m, hm⟩ : ∃ m : Nat, Int.log 2 |(z : ℚ)| - 52 = -(m : ℤ) := ⟨(52 - Int.log 2 |(z : ℚ)|).toNat, by omega⟩
  have hulp : ulp (z : ℚ) = 1 / 2 ^ m := by
    unfold ulp
    rw [hm, zpow_neg, zpow_natCast, one_div]
  unfold rnd
  rw [if_neg hx, hulp]
  have e : (z : ℚ) / (1 / 2 ^ m) = ((z * 2 ^ m : ℤ) : ℚ) := by
    push_cast
    rw [div_div_eq_mul_div, div_one]
  rw [e, rne_int]
  push_cast
  field_simp

theorem rnd_dyadic {z : ℤ} (hz : |z| < 2 ^ 53) (e : ℤ) : rnd (z * 2 ^ e) = z * 2 ^ e := by
  rw [rnd_scale, rnd_int hz]

theorem entry_dyadic {za zh e : ℤ} {c q : Nat} (hc : 0 < c) (hz : |za| + c * q * |zh| < 2 ^ 53) {i : Nat} (hi : i ≤ c) :
    entry (za * 2 ^ e) ((za + c * q * zh : ℤ) * 2 ^ e) c i = ((za + i * q * zh : ℤ) : ℚ) * 2 ^ e := by
  have hA : ∀ j : Nat, j ≤ c → |(j * q * zh : ℤ)| ≤ c * q * |zh| := by
    intro j hj
    rw [abs_mul, abs_of_nonneg (by positivity)]
    have : ((j * q : ℕ) : ℤ) ≤ ((c * q : ℕ) : ℤ) := by exact_mod_cast Nat.mul_le_mul_right q hj
    push_cast at this
    exact mul_le_mul_of_nonneg_right this (abs_nonneg _)
  have hza : 0 ≤ |za| := abs_nonneg _
  unfold entry
  rcases Nat.lt_or_eq_of_le hi with h | h
  · rw [if_pos h]
    have e1 : (((za + c * q * zh : ℤ) : ℚ) * 2 ^ e - za * 2 ^ e) = ((c * q * zh : ℤ) : ℚ) * 2 ^ e := by push_cast; ring
    have hc' : (c : ℚ) ≠ 0 := by exact_mod_cast hc.ne'
    rw [e1, rnd_dyadic (by have := hA c le_rfl; omega)]
    have e2 : ((c * q * zh : ℤ) : ℚ) * 2 ^ e / c = ((q * zh : ℤ) : ℚ) * 2 ^ e := by push_cast; field_simp
    have h1 := hA 1 hc
    push_cast at h1
    rw [one_mul] at h1
    rw [e2, rnd_dyadic (by omega)]
    have e3 : (i : ℚ) * (((q * zh : ℤ) : ℚ) * 2 ^ e) = ((i * q * zh : ℤ) : ℚ) * 2 ^ e := by push_cast; ring
    have h2 := hA i hi
    rw [e3, rnd_dyadic (by omega)]
    have e4 : ((i * q * zh : ℤ) : ℚ) * 2 ^ e + za * 2 ^ e = ((za + i * q * zh : ℤ) : ℚ) * 2 ^ e := by push_cast; ring
    have h3 := abs_add_le za (i * q * zh : ℤ)
    rw [e4, rnd_dyadic (by omega)]
  · subst h
    rw [if_neg (lt_irrefl _)]

theorem stride_range (n : Nat) {m : Nat} (hm : 1 ≤ m) : stride (List.range (n + 1)) m = (List.range (n / m + 1)).map (· * m) := by
  apply List.ext_getElem?
  intro k
  rw [stride_get _ hm, List.getElem?_map]
  by_cases h : k ≤ n / m
  · have : k * m ≤ n := (Nat.le_div_iff_mul_le hm).mp h
    rw [List.getElem?_range (by omega), List.getElem?_range (by omega)]
    rfl
  · have : ¬ k * m ≤ n := fun h' => h ((Nat.le_div_iff_mul_le hm).mpr h')
    rw [List.getElem?_eq_none (by simp; omega), List.getElem?_eq_none (by simp; omega)]
    rfl

/-- Index of the `k`-th point of the thinned grid. -/
def place (m k : Nat) : Nat := if k % 2 = 0 then m * (k / 2) else m * (k / 2 + 1) - 1

theorem place_lt {m : Nat} (hm : 2 ≤ m) {j k : Nat} (h : j < k) : place m j < place m k := by
  have mono : ∀ k, place m k < place m (k + 1) := by
    intro k
    unfold place
    have e : m * (k / 2 + 1) = m * (k / 2) + m := by ring
    rcases Nat.mod_two_eq_zero_or_one k with h | h
    · rw [if_pos h, if_neg (by omega), show (k + 1) / 2 = k / 2 by omega]
      omega
    · rw [if_neg (by omega), if_pos (by omega), show (k + 1) / 2 = k / 2 + 1 by omega]
      omega
  exact strictMono_nat_of_lt_succ mono h

theorem firstLevel_eq (n : Nat) {m : Nat} (hm : 2 ≤ m) :
    firstLevel (n + 1) m = (List.range (2 * (n / m) + 1)).map (place m) := by
  have hm1 : 1 ≤ m := by omega
  set q := n / m with hq
  have hsort : ((List.range (2 * q + 1)).map (place m)).Pairwise (· < ·) := by
    rw [List.pairwise_map]
    exact List.pairwise_lt_range.imp fun h => place_lt hm h
  have hs : (firstLevel (n + 1) m).Pairwise (· ≤ ·) := by
    have := List.pairwise_mergeSort (le := fun i j : Nat => decide (i ≤ j)) (by simp; omega) (by simp; omega)
      (stride (List.range (n + 1)) m ++ ((stride (List.range (n + 1)) m).drop 1).map (· - 1))
    exact this.imp fun h => by simpa using h
  refine List.Perm.eq_of_pairwise (le := (· ≤ ·)) (fun a b _ _ h1 h2 => le_antisymm h1 h2) hs (hsort.imp fun h => h.le) ?_
  refine (List.mergeSort_perm _ _).trans ?_
  rw [stride_range n hm1, ← hq]
  have hd : ((List.range (q + 1)).map (· * m)).drop 1 = (List.range q).map fun k => (k + 1) * m := by
    rw [List.range_succ_eq_map]
    simp [Function.comp_def]
  rw [hd, List.map_map]
  have n1 : ((List.range (q + 1)).map (· * m)).Nodup :=
    (List.nodup_range).map fun x y h => Nat.eq_of_mul_eq_mul_right (by omega) h
  have n2 : ((List.range q).map ((· - 1) ∘ fun k => (k + 1) * m)).Nodup := by
    refine (List.nodup_range).map fun x y h => ?_
    simp only [Function.comp_def] at h
    have hx : 0 < (x + 1) * m := Nat.mul_pos (by omega) (by omega)
    have hy : 0 < (y + 1) * m := Nat.mul_pos (by omega) (by omega)
    have := Nat.eq_of_mul_eq_mul_right (by omega : 0 < m) (show (x + 1) * m = (y + 1) * m by omega)
    omega
  refine (List.perm_ext_iff_of_nodup (List.Nodup.append n1 n2 ?_) (hsort.imp fun h => h.ne)).mpr ?_
  · intro x hx hy
    simp only [List.mem_map, List.mem_range, Function.comp_def] at hx hy
    obtain ⟨i, -, rfl⟩ := hx
    obtain ⟨j, -, e⟩ := hy
    have hj : 0 < (j + 1) * m := Nat.mul_pos (by omega) (by omega)
    have e' : i * m + 1 = (j + 1) * m := by omega
    have h1 : (i * m + 1) % m = ((j + 1) * m) % m := by rw [e']
    rw [Nat.mul_add_mod', Nat.mul_mod_left, Nat.mod_eq_of_lt (by omega)] at h1
    omega
  · intro x
    simp only [List.mem_append, List.mem_map, List.mem_range, Function.comp_def]
    constructor
    · rintro (⟨i, hi, rfl⟩ | ⟨i, hi, rfl⟩)
      · refine ⟨2 * i, by omega, ?_⟩
        unfold place
        rw [if_pos (by omega), show 2 * i / 2 = i by omega, Nat.mul_comm]
      · refine ⟨2 * i + 1, by omega, ?_⟩
        unfold place
        rw [if_neg (by omega), show (2 * i + 1) / 2 = i by omega, Nat.mul_comm]
    · rintro ⟨k, hk, rfl⟩
      unfold place
      split
      · exact Or.inl ⟨k / 2, by omega, Nat.mul_comm _ _⟩
      · exact Or.inr ⟨k / 2, by omega, by rw [Nat.mul_comm]⟩

theorem place_le {n m k : Nat} (hm : 2 ≤ m) (hk : k ≤ 2 * (n / m)) : place m k ≤ n := by
  have h1 : place m k ≤ place m (2 * (n / m)) := by
    rcases Nat.lt_or_eq_of_le hk with h | h
    · exact (place_lt hm h).le
    · rw [h]
  have h2 : place m (2 * (n / m)) = m * (n / m) := by
    unfold place
    rw [if_pos (by omega), show 2 * (n / m) / 2 = n / m by omega]
  exact h1.trans (h2 ▸ Nat.mul_div_le n m)

theorem thinned_length {t : List ℚ} {n m : Nat} (hm : 2 ≤ m) (ht : t.length = n + 1) :
    (thinned t m).length = 2 * (n / m) + 1 := by
  unfold thinned
  rw [ht, firstLevel_eq n hm]
  simp

theorem thinned_get {t : List ℚ} {n m k : Nat} (hm : 2 ≤ m) (ht : t.length = n + 1) (hk : k ≤ 2 * (n / m)) :
    (thinned t m)[k]? = t[place m k]? := by
  have hp := place_le hm hk
  unfold thinned
  rw [ht, firstLevel_eq n hm, List.getElem?_map, List.getElem?_map, List.getElem?_range (by omega)]
  rw [List.getElem?_eq_getElem (by omega : place m k < t.length)]
  simp [tAt, List.getD_eq_getElem?_getD, List.getElem?_eq_getElem (by omega : place m k < t.length)]

section march

variable {V : Type} {step : V → ℚ → ℚ → V}

theorem march_length (v : V) (t : List ℚ) : (march step v t).length = t.length := by
  induction t generalizing v with
  | nil => rfl
  | cons x xs ih =>
    cases xs with
    | nil => rfl
    | cons y ys => simp [march, ih]

theorem march_zero (v : V) {t : List ℚ} (h : 0 < t.length) : (march step v t)[0]? = some v := by
  match t, h with
  | [x], _ => rfl
  | x :: y :: ys, _ => rfl

theorem march_succ (v : V) (t : List ℚ) (i : Nat) (x y : ℚ) (w : V) (hx : t[i]? = some x) (hy : t[i + 1]? = some y)
    (hw : (march step v t)[i]? = some w) : (march step v t)[i + 1]? = some (step w x y) := by
  induction t generalizing v i with
  | nil => simp at hx
  | cons a as ih =>
    cases as with
    | nil => simp at hy
    | cons b bs =>
      cases i with
      | zero =>
        simp only [List.getElem?_cons_zero, Option.some.injEq, zero_add, List.getElem?_cons_succ] at hx hy
        subst hx; subst hy
        simp only [march, List.getElem?_cons_zero, Option.some.injEq] at hw
        subst hw
        simp only [march, zero_add, List.getElem?_cons_succ]
        exact march_zero _ (by simp)
      | succ i =>
        simp only [march, List.getElem?_cons_succ] at hw ⊢
        exact ih _ i (by simpa using hx) (by simpa using hy) hw

/-- If two steps in a row can be replaced by one, the value at a later point is one step away from every earlier value. -/
theorem march_jump (v : V) {t : List ℚ}
    (hc : ∀ (w : V) (i j k : Nat) (x y z : ℚ), i < j → j < k → t[i]? = some x → t[j]? = some y → t[k]? = some z →
      step (step w x y) y z = step w x z)
    {i : Nat} {x : ℚ} {w : V} (hx : t[i]? = some x) (hw : (march step v t)[i]? = some w) (d : Nat) (y : ℚ)
    (hy : t[i + d + 1]? = some y) : (march step v t)[i + d + 1]? = some (step w x y) := by
  induction d generalizing y with
  | zero => exact march_succ v t i x y w hx hy hw
  | succ d ih =>
    have hl : i + d + 1 < t.length := by
      have := (List.getElem?_eq_some_iff.mp hy).1
      omega
    have hz : t[i + d + 1]? = some t[i + d + 1] := List.getElem?_eq_getElem hl
    rw [show i + (d + 1) + 1 = i + d + 1 + 1 by omega] at hy ⊢
    rw [march_succ v t (i + d + 1) _ y _ hz hy (ih _ hz)]
    rw [hc w i (i + d + 1) (i + d + 1 + 1) x _ y (by omega) (by omega) hx hz hy]

theorem march_thinned (v : V) {t : List ℚ} {n m : Nat} (hm : 2 ≤ m) (ht : t.length = n + 1)
    (hc : ∀ (w : V) (i j k : Nat) (x y z : ℚ), i < j → j < k → t[i]? = some x → t[j]? = some y → t[k]? = some z →
      step (step w x y) y z = step w x z)
    (k : Nat) (hk : k ≤ 2 * (n / m)) : (march step v (thinned t m))[k]? = (march step v t)[place m k]? := by
  induction k with
  | zero =>
    rw [march_zero v (by rw [thinned_length hm ht]; omega)]
    simp only [place, Nat.zero_mod, if_true, Nat.zero_div, Nat.mul_zero]
    rw [march_zero v (by omega)]
  | succ k ih =>
    have h1 := ih (by omega)
    have hlt : place m k < place m (k + 1) := place_lt hm (Nat.lt_succ_self k)
    have hp := place_le hm hk
    have hk' : place m k < t.length := by omega
    have hx : t[place m k]? = some t[place m k] := List.getElem?_eq_getElem (by omega)
    have hy : t[place m (k + 1)]? = some t[place m (k + 1)] := List.getElem?_eq_getElem (by omega)
    have hl : place m k < (march step v t).length := by rw [march_length]; omega
    have hw : (march step v t)[place m k]? = some (march step v t)[place m k] := List.getElem?_eq_getElem hl
    rw [march_succ v (thinned t m) k _ _ _ ((thinned_get hm ht (by omega)).trans hx) ((thinned_get hm ht hk).trans hy)
      (h1.trans hw)]
    obtain ⟨d, hd⟩ : ∃ d, place m (k + 1) = place m k + d + 1 := ⟨place m (k + 1) - place m k - 1, by omega⟩
    have := march_jump v hc hx hw d t[place m (k + 1)] (by rw [← hd]; exact hy)
    rw [← hd] at this
    exact this.symm

end march

end Pymgrit.MachineGrid
