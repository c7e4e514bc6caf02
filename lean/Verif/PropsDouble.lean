import Verif.DoubleProofs
import Verif.Grid

/-!
# C130: time grids and distribution in double precision

Applications are usually constructed with `t_start`, `t_stop` and `nt`, one per level; the constructor of the solver compares the
times of neighbouring levels for equality.  The theorems hold for all doubles (rationals) `a`, `b`; rounding is `Double.rnd`.
-/

namespace Pymgrit.Double

/-- If the number of intervals is divided by a power of two, the coarse grid consists of every `2 ^ k`-th point of the fine grid,
exactly, in spite of all roundings. -/
theorem C130_nested_partial (a b : ℚ) (n k : Nat) {i : Nat} (hi : i ≤ n) :
    (linspace a b n)[i]? = (linspace a b (2 ^ k * n))[2 ^ k * i]? := by
  rw [linspace_get a b hi, linspace_get a b (Nat.mul_le_mul_left _ hi), entry_refine]

/-- The points are in strictly increasing order unless the step is as small as the rounding errors. -/
theorem C130_increasing {a b M : ℚ} {n : Nat} (hn : 0 < n) (ha : |a| ≤ M) (hb : |b| ≤ M)
    (hstep : 20 / 2 ^ 53 * M < (b - a) / n) : (linspace a b n).Pairwise (· < ·) := by
  have hM : 0 ≤ M := (abs_nonneg a).trans ha
  have hn' : (0 : ℚ) < n := by exact_mod_cast hn
  have hh : 0 < (b - a) / n := lt_of_le_of_lt (by positivity) hstep
  have hab : a ≤ b := by
    have := (div_pos_iff_of_pos_right hn').mp hh
    linarith
  rw [List.pairwise_iff_getElem]
  intro i j hi hj hij
  rw [linspace_length] at hi hj
  have gi := linspace_get a b (n := n) (i := i) (by omega)
  have gj := linspace_get a b (n := n) (i := j) (by omega)
  rw [List.getElem?_eq_getElem (by rw [linspace_length]; omega)] at gi gj
  rw [Option.some.inj gi, Option.some.inj gj]
  have ei := entry_err hn (i := i) (by omega) ha hb hab
  have ej := entry_err hn (i := j) (by omega) ha hb hab
  rw [abs_le] at ei ej
  have hij' : (i : ℚ) + 1 ≤ j := by exact_mod_cast hij
  have := mul_le_mul_of_nonneg_right hij' hh.le
  norm_num at ei ej hstep this
  linarith [ei.2, ej.1]

/-- Hence the applications form a valid hierarchy: increasing times, the coarse ones contained in the fine ones, the same start. -/
theorem C130_valid_partial {a b M : ℚ} {ns : List Nat} {N : Nat} (hN : ns.head? = some N) (hns : Halved ns) (ha : |a| ≤ M)
    (hb : |b| ≤ M) (hstep : 20 / 2 ^ 53 * M < (b - a) / N) : Valid (levels a b ns) := by
  have hpos : 0 < ns.length := by
    cases ns with
    | nil => simp at hN
    | cons => simp
  have hgrid : ∀ (l n : Nat), ns[l]? = some n → grid (levels a b ns) l = linspace a b n := by
    intro l n hl
    simp [grid, levels, hl, List.getD_eq_getElem?_getD]
  have hN0 : ns[0]? = some N := by rw [← hN, List.head?_eq_getElem?]
  have hhead : ∀ n, 0 < n → (linspace a b n).head? = some (rnd a) := by
    intro n hn
    rw [List.head?_eq_getElem?, linspace_get a b (Nat.zero_le n)]
    simp [entry, hn, rnd_zero]
  have hM : 0 ≤ M := (abs_nonneg a).trans ha
  refine ⟨by simpa [levels] using hpos, ?_, ?_, ?_, ?_⟩
  · rw [hgrid 0 N hN0]
    intro e
    have := linspace_length a b N
    rw [e] at this
    simp at this
  · intro l
    cases hl : ns[l]? with
    | none =>
      have : grid (levels a b ns) l = [] := by simp [grid, levels, hl, List.getD_eq_getElem?_getD]
      rw [this]; exact List.Pairwise.nil
    | some n =>
      rw [hgrid l n hl]
      have hn := halved_get hns l n hl
      have hn' : (0 : ℚ) < n := by exact_mod_cast hn
      have hle : (n : ℚ) ≤ N := by exact_mod_cast halved_le hns hN l n hl
      have hNp : (0 : ℚ) < N := lt_of_lt_of_le hn' hle
      have hab : 0 ≤ b - a := by
        have : 0 < (b - a) / N := lt_of_le_of_lt (by positivity) hstep
        exact ((div_pos_iff_of_pos_right hNp).mp this).le
      exact C130_increasing hn ha hb (lt_of_lt_of_le hstep (div_le_div_of_nonneg_left hab hn' hle))
  · intro l hl x hx
    have hl' : l + 1 < ns.length := by simpa [levels] using hl
    have h1 := List.getElem?_eq_getElem hl'
    have h0 := List.getElem?_eq_getElem (show l < ns.length by omega)
    rw [hgrid _ _ h1] at hx
    rw [hgrid _ _ h0]
    obtain ⟨k, hk⟩ := halved_next hns l _ _ h0 h1
    rw [hk]
    obtain ⟨i, hi⟩ := List.mem_iff_getElem?.mp hx
    have hle : i ≤ ns[l + 1] := by
      by_contra hc
      rw [List.getElem?_eq_none (by rw [linspace_length]; omega)] at hi
      simp at hi
    rw [C130_nested_partial a b _ k hle] at hi
    exact List.mem_of_getElem? hi
  · intro l hl
    have hl' : l < ns.length := by simpa [levels] using hl
    have h1 := List.getElem?_eq_getElem hl'
    rw [hgrid _ _ h1, hgrid _ _ hN0, hhead _ (halved_get hns l _ h1), hhead _ (halved_get hns 0 _ hN0)]

/-- For other factors this fails: with `t_start=0`, `t_stop=1`, `nt=16` on the fine and `nt=6` on the coarse level the fourth
coarse point `3 * 0.2` is not a point of the fine grid, so the constructor rejects the problems (mgrit.py:91-97). -/
theorem C130_counterexample : (linspace 0 1 5)[3]? = some (5404319552844596 / 9007199254740992) ∧
    (5404319552844596 / 9007199254740992 : ℚ) ∉ linspace 0 1 15 ∧ ¬ Valid (levels 0 1 [15, 5]) := by
  have h1 : (linspace 0 1 5)[3]? = some (5404319552844596 / 9007199254740992) := by decide +kernel
  have h2 : (5404319552844596 / 9007199254740992 : ℚ) ∉ linspace 0 1 15 := by decide +kernel
  exact ⟨h1, h2, fun h => h2 (h.nested 0 (by decide) _ (List.mem_of_getElem? h1))⟩

/-- The roundings in `split_into` have no effect up to `2 ^ 51` time points. -/
theorem C130_split {n P : Nat} (hP : 0 < P) (hPn : P ≤ n) (hn : n < 2 ^ 51) : splitInto64 n P = splitInto n P := by
  have hP' : (0 : ℚ) < P := by exact_mod_cast hP
  have hn0 : 0 < n := by omega
  have hnq : (0 : ℚ) < n := by exact_mod_cast hn0
  have hn51 : (n : ℚ) < 2 ^ 51 := by exact_mod_cast hn
  have hPnq : (P : ℚ) ≤ n := by exact_mod_cast hPn
  have hP1 : (1 : ℚ) ≤ P := by exact_mod_cast hP
  set x : ℚ := (n : ℚ) / P with hx
  have hx0 : 0 < x := div_pos hnq hP'
  have hxn : x ≤ 2 ^ 51 := le_trans (div_le_self hnq.le hP1) hn51.le
  have hq : ((n / P : Nat) : ℚ) ≤ x := by
    rw [hx, le_div_iff₀ hP']
    exact_mod_cast Nat.div_mul_le_self n P
  obtain ⟨c, hc⟩ : ∃ c : ℚ, c = 1 / P := ⟨_, rfl⟩
  have hup : x + c ≤ (n / P : Nat) + 1 := by
    have h1 : n + 1 ≤ P * (n / P + 1) := Nat.lt_mul_div_succ n hP
    have h2 : (n : ℚ) + 1 ≤ P * ((n / P : Nat) + 1) := by exact_mod_cast h1
    rw [hx, hc, ← add_div, div_le_iff₀ hP']
    linarith
  have hr := rnd_rel hx0.le
  have hlow : ((n / P : Nat) : ℚ) ≤ rnd x := by
    have := int_le_rnd (q := ((n / P : Nat) : ℤ)) hx0 (by norm_num at hxn ⊢; linarith) (by exact_mod_cast hq)
    exact_mod_cast this
  have hxP : x * P = n := by rw [hx]; field_simp
  -- the rounding errors are smaller than the distance to the next integer
  have hgap : x * (3 / 2 ^ 53) + 1 / 2 ^ 53 < c := by
    rw [hc, lt_div_iff₀ hP']
    have : (x * (3 / 2 ^ 53) + 1 / 2 ^ 53) * P = 3 / 2 ^ 53 * n + 1 / 2 ^ 53 * P := by rw [← hxP]; ring
    rw [this]
    have h51 : (n : ℚ) < 2251799813685248 := lt_of_lt_of_eq hn51 (by norm_num)
    norm_num
    linarith
  have h1 : ⌊rnd x⌋₊ = n / P := by
    rw [Nat.floor_eq_iff (le_trans (by positivity) hlow)]
    refine ⟨hlow, ?_⟩
    norm_num at hr hgap
    linarith [hr.2]
  have hz0 : 0 < rnd x + 1 := by
    have : (0 : ℚ) ≤ ((n / P : Nat) : ℚ) := by positivity
    linarith
  have hr2 := rnd_rel hz0.le
  have h2 : ⌊rnd (rnd x + 1)⌋₊ = n / P + 1 := by
    have hlow2 : (((n / P + 1 : Nat) : ℤ) : ℚ) ≤ rnd (rnd x + 1) := by
      refine int_le_rnd hz0 ?_ ?_
      · norm_num at hr hxn ⊢; linarith [hr.2]
      · have e : (((n / P + 1 : Nat) : ℤ) : ℚ) = ((n / P : Nat) : ℚ) + 1 := by
          rw [Int.cast_natCast, Nat.cast_succ]
        rw [e]; linarith
    have hlow3 : ((n / P + 1 : Nat) : ℚ) ≤ rnd (rnd x + 1) := by exact_mod_cast hlow2
    rw [Nat.floor_eq_iff (le_trans (by positivity) hlow3)]
    refine ⟨hlow3, ?_⟩
    have e : ((n / P + 1 : Nat) : ℚ) = ((n / P : Nat) : ℚ) + 1 := Nat.cast_succ _
    rw [e]
    norm_num at hr hr2 hgap ⊢
    linarith [hr.2, hr2.2]
  unfold splitInto64 splitInto
  rw [← hx, h1, h2]

/-! ### Rounding -/

theorem rne_spec (y : ℚ) : 2 * |(rne y : ℚ) - y| ≤ 1 ∧ (2 * |(rne y : ℚ) - y| = 1 → Even (rne y)) := by
  have h1 := Int.floor_le y
  have h2 := Int.lt_floor_add_one y
  unfold rne
  split
  · rename_i h
    rw [abs_sub_comm, abs_of_nonneg (by linarith)]
    exact ⟨by linarith, fun e => by exfalso; linarith⟩
  · rename_i h
    split
    · rename_i h'
      push_cast
      rw [abs_of_nonneg (by linarith)]
      exact ⟨by linarith, fun e => by exfalso; linarith⟩
    · rename_i h'
      have e : y = (⌊y⌋ : ℚ) + 1 / 2 := by linarith
      split
      · rename_i h3
        rw [abs_sub_comm, abs_of_nonneg (by linarith)]
        exact ⟨by linarith, fun _ => Int.even_iff.2 h3⟩
      · rename_i h3
        push_cast
        rw [abs_of_nonneg (by linarith)]
        exact ⟨by linarith, fun _ => Int.even_iff.2 (by omega)⟩

/-- C130.  The rounding of the model is that of IEEE 754: the result is a multiple of the unit in the last place of 53 bits, at
most half a unit from the argument, and with an even last digit if it is half a unit away. -/
theorem C130_rounding (x : ℚ) (hx : x ≠ 0) : ∃ (e m : ℤ), rnd x = m * (2 : ℚ) ^ e ∧
    (2 : ℚ) ^ (e + 52) ≤ |x| ∧ |x| < (2 : ℚ) ^ (e + 53) ∧ 2 * |rnd x - x| ≤ (2 : ℚ) ^ e ∧
    (2 * |rnd x - x| = (2 : ℚ) ^ e → Even m) := by
  have hx' : 0 < |x| := abs_pos.2 hx
  have hu : (0 : ℚ) < 2 ^ (Int.log 2 |x| - 52) := zpow_pos (by norm_num) _
  obtain ⟨h1, h2⟩ := rne_spec (x / ulp x)
  have e : 2 * |rnd x - x| = 2 * |(rne (x / ulp x) : ℚ) - x / ulp x| * ulp x := by
    unfold rnd
    rw [if_neg hx, mul_assoc]
    congr 1
    have hp : 0 < ulp x := hu
    have : |(rne (x / ulp x) : ℚ) - x / ulp x| * ulp x = |(rne (x / ulp x) : ℚ) - x / ulp x| * |ulp x| := by rw [abs_of_pos hp]
    rw [this, ← abs_mul, sub_mul, div_mul_cancel₀ _ hp.ne']
  refine ⟨Int.log 2 |x| - 52, rne (x / ulp x), by rw [rnd, if_neg hx]; rfl, ?_, ?_, ?_, ?_⟩
  · rw [sub_add_cancel]
    exact_mod_cast Int.zpow_log_le_self (b := 2) (by norm_num) hx'
  · rw [show Int.log 2 |x| - 52 + 53 = Int.log 2 |x| + 1 by ring]
    exact_mod_cast Int.lt_zpow_succ_log_self (b := 2) (by norm_num) |x|
  · rw [e]
    exact mul_le_of_le_one_left hu.le h1
  · intro h
    rw [e] at h
    exact h2 ((mul_eq_right₀ hu.ne').1 h)

/-- Nothing is lost with 53 bits, half a unit away rounds to the even neighbour. -/
example : rnd (2 ^ 53 - 1) = 2 ^ 53 - 1 ∧ rnd (2 ^ 53 + 1) = 2 ^ 53 ∧ rnd (2 ^ 53 + 3) = 2 ^ 53 + 4 := by decide +kernel

/-! ### Examples -/

/-- The hypotheses hold for `t_start=0`, `t_stop=5`, `nt=101`, `51`, `26`. -/
example : Valid (levels 0 5 [100, 50, 25]) :=
  C130_valid_partial (M := 5) rfl ⟨⟨1, rfl⟩, ⟨1, rfl⟩, (by decide : 0 < 25)⟩ (by norm_num) (by norm_num) (by norm_num)

/-- The times are rounded: `0.1 * 3` is not `0.3`. -/
example : (linspace 0 (1 / 2) 5)[3]? ≠ some (3 / 10) := by decide +kernel

example : splitInto64 1000 7 = [143, 143, 143, 143, 143, 143, 142] := by decide +kernel

end Pymgrit.Double
