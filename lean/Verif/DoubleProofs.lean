import Verif.Double
import Mathlib.Tactic.Linarith
import Mathlib.Tactic.Ring
import Mathlib.Tactic.FieldSimp
import Mathlib.Tactic.NormNum
import Mathlib.Tactic.Positivity

/-!
# Helper lemmas on double precision
-/

namespace Pymgrit.Double

theorem rne_err (y : ℚ) : |(rne y : ℚ) - y| ≤ 1 / 2 := by
  have h0 := Int.floor_le y
  have h1 := Int.lt_floor_add_one y
  unfold rne
  split_ifs <;> (try push_cast) <;> rw [abs_le] <;> constructor <;> linarith

theorem floor_le_rne (y : ℚ) : ⌊y⌋ ≤ rne y := by unfold rne; split_ifs <;> omega

theorem two_zpow_pos (k : ℤ) : (0 : ℚ) < 2 ^ k := zpow_pos (by norm_num) k

theorem ulp_pos (x : ℚ) : 0 < ulp x := two_zpow_pos _

theorem ulp_le {x : ℚ} (hx : x ≠ 0) : ulp x ≤ 1 / 2 ^ 52 * |x| := by
  unfold ulp
  have h := Int.zpow_log_le_self (b := 2) (r := |x|) (by norm_num) (abs_pos.mpr hx)
  rw [zpow_sub₀ (by norm_num)]
  have h2 : ((2 : ℚ) ^ (52 : ℤ)) = 2 ^ 52 := by norm_num
  rw [h2]
  push_cast at h
  rw [div_eq_mul_inv, mul_comm, ← one_div]
  exact mul_le_mul_of_nonneg_left h (by norm_num)

theorem rnd_zero : rnd 0 = 0 := by simp [rnd]

theorem rnd_err (x : ℚ) : |rnd x - x| ≤ 1 / 2 ^ 53 * |x| := by
  unfold rnd
  split_ifs with hx
  · simp [hx]
  · have hp := ulp_pos x
    have h := rne_err (x / ulp x)
    have e : (rne (x / ulp x) : ℚ) * ulp x - x = ((rne (x / ulp x) : ℚ) - x / ulp x) * ulp x := by
      field_simp
    rw [e, abs_mul, abs_of_pos hp]
    have := mul_le_mul_of_nonneg_right h hp.le
    have h2 := ulp_le hx
    calc _ ≤ 1 / 2 * ulp x := this
      _ ≤ 1 / 2 * (1 / 2 ^ 52 * |x|) := by linarith
      _ = 1 / 2 ^ 53 * |x| := by ring

theorem log_eq {x : ℚ} {e : ℤ} (h0 : (2 : ℚ) ^ e ≤ x) (h1 : x < 2 ^ (e + 1)) : Int.log 2 x = e := by
  have hx : 0 < x := lt_of_lt_of_le (two_zpow_pos e) h0
  have a : e ≤ Int.log 2 x := (Int.zpow_le_iff_le_log (b := 2) (by norm_num) hx).mp (by exact_mod_cast h0)
  have b : Int.log 2 x < e + 1 := (Int.lt_zpow_iff_log_lt (b := 2) (by norm_num) hx).mp (by exact_mod_cast h1)
  omega

theorem ulp_scale {x : ℚ} (hx : x ≠ 0) (k : ℤ) : ulp (x * 2 ^ k) = ulp x * 2 ^ k := by
  have hk : (0 : ℚ) < 2 ^ k := two_zpow_pos k
  have h0 := Int.zpow_log_le_self (b := 2) (r := |x|) (by norm_num) (abs_pos.mpr hx)
  have h1 := Int.lt_zpow_succ_log_self (b := 2) (by norm_num) |x|
  push_cast at h0 h1
  have e : Int.log 2 |x * 2 ^ k| = Int.log 2 |x| + k := by
    rw [abs_mul, abs_of_pos hk]
    apply log_eq
    · rw [zpow_add₀ (by norm_num)]
      exact mul_le_mul_of_nonneg_right h0 hk.le
    · rw [show Int.log 2 |x| + k + 1 = (Int.log 2 |x| + 1) + k by ring, zpow_add₀ (by norm_num)]
      exact mul_lt_mul_of_pos_right h1 hk
  unfold ulp
  rw [e, ← zpow_add₀ (by norm_num)]
  congr 1
  ring

/-- Multiplication with a power of two is exact. -/
theorem rnd_scale (x : ℚ) (k : ℤ) : rnd (x * 2 ^ k) = rnd x * 2 ^ k := by
  have hk : (0 : ℚ) < 2 ^ k := two_zpow_pos k
  by_cases hx : x = 0
  · simp [hx, rnd_zero]
  · unfold rnd
    rw [if_neg hx, if_neg (mul_ne_zero hx hk.ne'), ulp_scale hx]
    have hu := ulp_pos x
    rw [show x * 2 ^ k / (ulp x * 2 ^ k) = x / ulp x by field_simp]
    ring

/-- Rounding does not pass below an integer. -/
theorem int_le_rnd {x : ℚ} {q : ℤ} (h0 : 0 < x) (h1 : x < 2 ^ 53) (h : (q : ℚ) ≤ x) : (q : ℚ) ≤ rnd x := by
  unfold rnd
  rw [if_neg h0.ne']
  have hu := ulp_pos x
  have hlog : Int.log 2 |x| < 53 := by
    rw [abs_of_pos h0]
    refine (Int.lt_zpow_iff_log_lt (b := 2) (by norm_num) h0).mp ?_
    exact_mod_cast h1
  obtain ⟨m, hm⟩ : ∃ m : Nat, Int.log 2 |x| - 52 = -(m : ℤ) := ⟨(52 - Int.log 2 |x|).toNat, by omega⟩
  have hulp : ulp x = 1 / 2 ^ m := by
    unfold ulp
    rw [hm, zpow_neg, zpow_natCast, one_div]
  have hz : (q * 2 ^ m : ℤ) ≤ ⌊x / ulp x⌋ := by
    rw [Int.le_floor, hulp]
    push_cast
    rw [div_div_eq_mul_div, div_one]
    exact mul_le_mul_of_nonneg_right h (by positivity)
  have hz' : ((q * 2 ^ m : ℤ) : ℚ) ≤ rne (x / ulp x) := by exact_mod_cast hz.trans (floor_le_rne _)
  push_cast at hz'
  calc (q : ℚ) = q * 2 ^ m * ulp x := by rw [hulp]; field_simp
    _ ≤ _ := mul_le_mul_of_nonneg_right hz' hu.le

theorem linspace_length (a b : ℚ) (n : Nat) : (linspace a b n).length = n + 1 := by simp [linspace]

/-- Entry `i` of the grid. -/
def entry (a b : ℚ) (n i : Nat) : ℚ := if i < n then rnd (rnd ((i : ℚ) * rnd (rnd (b - a) / n)) + a) else b

theorem linspace_get (a b : ℚ) {n i : Nat} (hi : i ≤ n) : (linspace a b n)[i]? = some (entry a b n i) := by
  unfold linspace entry
  rcases Nat.lt_or_eq_of_le hi with h | h
  · rw [List.getElem?_append_left (by simpa using h), if_pos h, List.getElem?_map, List.getElem?_range h]
    rfl
  · subst h
    rw [List.getElem?_append_right (by simp)]
    simp

/-- Refining by a power of two keeps the points. -/
theorem entry_refine (a b : ℚ) (n k i : Nat) : entry a b (2 ^ k * n) (2 ^ k * i) = entry a b n i := by
  unfold entry
  have hk : (0 : Nat) < 2 ^ k := by positivity
  simp only [Nat.mul_lt_mul_left hk]
  have e1 : rnd (rnd (b - a) / ((2 ^ k * n : Nat) : ℚ)) = rnd (rnd (b - a) / n) * 2 ^ (-(k : ℤ)) := by
    rw [← rnd_scale]
    congr 1
    push_cast
    rw [zpow_neg, zpow_natCast, ← div_eq_mul_inv, div_div, mul_comm]
  have e2 : ((2 ^ k * i : Nat) : ℚ) * rnd (rnd (b - a) / ((2 ^ k * n : Nat) : ℚ)) = i * rnd (rnd (b - a) / n) := by
    rw [e1]
    push_cast
    rw [zpow_neg, zpow_natCast]
    have : (2 : ℚ) ^ k ≠ 0 := by positivity
    field_simp
  rw [e2]

theorem rnd_rel {x : ℚ} (hx : 0 ≤ x) : (1 - 1 / 2 ^ 53) * x ≤ rnd x ∧ rnd x ≤ (1 + 1 / 2 ^ 53) * x := by
  have h := rnd_err x
  rw [abs_of_nonneg hx, abs_le] at h
  constructor <;> linarith [h.1, h.2]

/-- The entries differ from the exact ones by a few roundings. -/
theorem entry_err {a b M : ℚ} {n i : Nat} (hn : 0 < n) (hi : i ≤ n) (ha : |a| ≤ M) (hb : |b| ≤ M) (hab : a ≤ b) :
    |entry a b n i - ((i : ℚ) * ((b - a) / n) + a)| ≤ 10 / 2 ^ 53 * M := by
  have hM : 0 ≤ M := (abs_nonneg a).trans ha
  have hn' : (0 : ℚ) < n := by exact_mod_cast hn
  have hin : (i : ℚ) ≤ n := by exact_mod_cast hi
  have hi0 : (0 : ℚ) ≤ i := Nat.cast_nonneg i
  rw [abs_le] at ha hb
  unfold entry
  split_ifs with h
  · have hD0 : 0 ≤ b - a := by linarith
    have hd := rnd_rel hD0
    set d := rnd (b - a)
    have hd0 : 0 ≤ d := le_trans (mul_nonneg (by norm_num) hD0) hd.1
    have hs := rnd_rel (div_nonneg hd0 hn'.le)
    set s := rnd (d / n)
    have hs0 : 0 ≤ s := le_trans (mul_nonneg (by norm_num) (div_nonneg hd0 hn'.le)) hs.1
    have hp := rnd_rel (mul_nonneg hi0 hs0)
    set p := rnd ((i : ℚ) * s)
    set E : ℚ := (i : ℚ) * ((b - a) / n) with hE
    have hE0 : 0 ≤ E := mul_nonneg hi0 (div_nonneg hD0 hn'.le)
    have hE1 : E ≤ b - a := by
      rw [hE, mul_div_assoc', div_le_iff₀ hn', mul_comm]
      exact mul_le_mul_of_nonneg_left hin hD0
    have h1 : (1 - 1 / 2 ^ 53) * ((b - a) / n) ≤ d / n ∧ d / n ≤ (1 + 1 / 2 ^ 53) * ((b - a) / n) := by
      constructor
      · rw [mul_div_assoc']; exact div_le_div_of_nonneg_right hd.1 hn'.le
      · rw [mul_div_assoc']; exact div_le_div_of_nonneg_right hd.2 hn'.le
    have h2 : (1 - 1 / 2 ^ 53) * ((1 - 1 / 2 ^ 53) * ((b - a) / n)) ≤ s ∧
        s ≤ (1 + 1 / 2 ^ 53) * ((1 + 1 / 2 ^ 53) * ((b - a) / n)) :=
      ⟨(mul_le_mul_of_nonneg_left h1.1 (by norm_num)).trans hs.1, hs.2.trans (mul_le_mul_of_nonneg_left h1.2 (by norm_num))⟩
    have h3 := mul_le_mul_of_nonneg_left h2.1 hi0
    have h4 := mul_le_mul_of_nonneg_left h2.2 hi0
    have h5 : (1 - 1 / 2 ^ 53) * ((1 - 1 / 2 ^ 53) * ((1 - 1 / 2 ^ 53) * E)) ≤ p := by
      refine le_trans ?_ hp.1
      refine mul_le_mul_of_nonneg_left (le_trans (le_of_eq ?_) h3) (by norm_num)
      rw [hE]; ring
    have h6 : p ≤ (1 + 1 / 2 ^ 53) * ((1 + 1 / 2 ^ 53) * ((1 + 1 / 2 ^ 53) * E)) := by
      refine le_trans hp.2 ?_
      refine mul_le_mul_of_nonneg_left (le_trans h4 (le_of_eq ?_)) (by norm_num)
      rw [hE]; ring
    have h7 : -(7 / 2 ^ 53 * M) ≤ p - E ∧ p - E ≤ 7 / 2 ^ 53 * M := by
      constructor <;> norm_num at h5 h6 ⊢ <;> linarith
    have hz := rnd_err (p + a)
    have hza : |p + a| ≤ 2 * M := by
      rw [abs_le]
      constructor <;> norm_num at h7 ⊢ <;> linarith [h7.1, h7.2]
    rw [abs_le] at hz ⊢
    constructor <;> norm_num at h7 hz ⊢ <;> linarith [h7.1, h7.2, hz.1, hz.2]
  · have : (i : ℚ) = n := by
      have : i = n := by omega
      exact_mod_cast this
    rw [this, show b - ((n : ℚ) * ((b - a) / n) + a) = 0 by field_simp; ring]
    simp
    positivity

theorem halved_get {ns : List Nat} (h : Halved ns) : ∀ (l n : Nat), ns[l]? = some n → 0 < n := by
  induction ns with
  | nil => intro l n hl; simp at hl
  | cons m ns ih =>
    cases ns with
    | nil =>
      intro l n hl
      cases l with
      | zero => simp at hl; subst hl; exact h
      | succ l => simp at hl
    | cons p ns =>
      intro l n hl
      obtain ⟨⟨k, hk⟩, h'⟩ := h
      cases l with
      | zero =>
        simp at hl
        subst hl
        rw [hk]
        exact Nat.mul_pos (by positivity) (ih h' 0 p rfl)
      | succ l => exact ih h' l n hl

theorem halved_next {ns : List Nat} (h : Halved ns) : ∀ (l m n : Nat), ns[l]? = some m → ns[l + 1]? = some n → ∃ k, m = 2 ^ k * n := by
  induction ns with
  | nil => intro l m n hl; simp at hl
  | cons p ns ih =>
    cases ns with
    | nil => intro l m n _ hl; simp at hl
    | cons q ns =>
      intro l m n hl hl'
      cases l with
      | zero => simp at hl hl'; subst hl hl'; exact h.1
      | succ l => exact ih h.2 l m n hl hl'

theorem halved_le {ns : List Nat} (h : Halved ns) {N : Nat} (hN : ns.head? = some N) : ∀ (l n : Nat), ns[l]? = some n → n ≤ N := by
  intro l
  induction l with
  | zero => intro n hl; rw [← List.head?_eq_getElem?] at hl; rw [hN] at hl; simp at hl; omega
  | succ l ih =>
    intro n hl
    have hlt : l < ns.length := by
      by_contra hc
      rw [List.getElem?_eq_none (by omega)] at hl
      simp at hl
    obtain ⟨k, hk⟩ := halved_next h l ns[l] n (List.getElem?_eq_getElem hlt) hl
    have := ih _ (List.getElem?_eq_getElem hlt)
    have hk1 : 1 ≤ 2 ^ k := Nat.one_le_two_pow
    nlinarith

end Pymgrit.Double
