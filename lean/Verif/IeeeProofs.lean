import Verif.Ieee
import Verif.DoubleProofs
import Mathlib.Tactic.Linarith
import Mathlib.Tactic.Positivity
import Mathlib.Tactic.FieldSimp
import Mathlib.Tactic.Ring

/-!
# Helper lemmas on doubles
-/

namespace Pymgrit.Ieee
open Pymgrit.Double (rne floor_le_rne two_zpow_pos rne_err)

theorem rne_mono {x y : ℚ} (h : x ≤ y) : rne x ≤ rne y := by
  have hf := Int.floor_mono h
  rcases hf.lt_or_eq with hl | he
  · have h1 : rne x ≤ ⌊x⌋ + 1 := by unfold rne; split_ifs <;> omega
    have h2 := floor_le_rne y
    omega
  · unfold rne
    rw [← he]
    split_ifs <;> first | omega | (exfalso; linarith)

theorem rne_int (n : ℤ) : rne (n : ℚ) = n := by
  unfold rne
  simp

theorem rne_le {x : ℚ} {n : ℤ} (h : x ≤ n) : rne x ≤ n := (rne_mono h).trans (rne_int n).le

theorem le_rne {x : ℚ} {n : ℤ} (h : (n : ℚ) ≤ x) : n ≤ rne x := (rne_int n).ge.trans (rne_mono h)

theorem ulp64_pos (x : ℚ) : 0 < ulp64 x := two_zpow_pos _

theorem zpow_le {a b : ℤ} (h : a ≤ b) : (2 : ℚ) ^ a ≤ 2 ^ b := zpow_le_zpow_right₀ (by norm_num) h

theorem log_lower {x : ℚ} (hx : 0 < x) : (2 : ℚ) ^ Int.log 2 x ≤ x := by
  have := Int.zpow_log_le_self (b := 2) (by norm_num) hx
  exact_mod_cast this

theorem log_upper (x : ℚ) : x < (2 : ℚ) ^ (Int.log 2 x + 1) := by
  have := Int.lt_zpow_succ_log_self (b := 2) (by norm_num) x
  exact_mod_cast this

/-- Rounding of `x ≥ 0`. -/
theorem rnd64_nonneg_eq {x : ℚ} (h : 0 ≤ x) : rnd64 x = (rne (x / ulp64 x) : ℚ) * ulp64 x := by
  unfold rnd64; rw [if_pos h]

theorem rnd64_zero : rnd64 0 = 0 := by
  rw [rnd64_nonneg_eq le_rfl, zero_div]
  have : rne 0 = 0 := by exact_mod_cast rne_int 0
  rw [this]; simp

theorem rnd64_neg (x : ℚ) : rnd64 (-x) = -rnd64 x := by
  rcases lt_trichotomy x 0 with h | h | h
  · unfold rnd64; rw [if_pos (by linarith), if_neg (by linarith), neg_neg]
  · rw [h, neg_zero, rnd64_zero, neg_zero]
  · unfold rnd64; rw [if_neg (by linarith), if_pos h.le, neg_neg]

theorem rnd64_nonneg {x : ℚ} (h : 0 ≤ x) : 0 ≤ rnd64 x := by
  rw [rnd64_nonneg_eq h]
  have : (0 : ℤ) ≤ rne (x / ulp64 x) := le_rne (by push_cast; exact div_nonneg h (ulp64_pos x).le)
  exact mul_nonneg (by exact_mod_cast this) (ulp64_pos x).le

/-- At most `2^53` units in the last place. -/
theorem quot_lt {x : ℚ} : x < ulp64 x * 2 ^ 53 := by
  refine (log_upper x).trans_le ?_
  unfold ulp64
  rw [show (2 : ℚ) ^ 53 = 2 ^ (53 : ℤ) by norm_cast, ← zpow_add₀ (by norm_num)]
  exact zpow_le (by omega)

theorem rnd64_mono_nonneg {x y : ℚ} (h0 : 0 ≤ x) (h : x ≤ y) : rnd64 x ≤ rnd64 y := by
  rcases h0.lt_or_eq with hx | rfl
  swap
  · rw [rnd64_zero]; exact rnd64_nonneg h
  have hy : 0 < y := hx.trans_le h
  have hlog : Int.log 2 x ≤ Int.log 2 y := Int.log_mono_right hx h
  rw [rnd64_nonneg_eq h0, rnd64_nonneg_eq hy.le]
  by_cases he : max (Int.log 2 x - 52) (-1074) = max (Int.log 2 y - 52) (-1074)
  · have hu : ulp64 y = ulp64 x := by unfold ulp64; rw [he]
    rw [hu]
    refine mul_le_mul_of_nonneg_right ?_ (ulp64_pos x).le
    have := rne_mono (div_le_div_of_nonneg_right h (ulp64_pos x).le)
    exact_mod_cast this
  · have h1 : (rne (x / ulp64 x) : ℚ) ≤ 2 ^ 53 := by
      have : rne (x / ulp64 x) ≤ (2 ^ 53 : ℤ) :=
        rne_le (by push_cast; rw [div_le_iff₀ (ulp64_pos x), mul_comm]; exact quot_lt.le)
      exact_mod_cast this
    have h2 : ((2 : ℚ) ^ 52) ≤ rne (y / ulp64 y) := by
      have hq : (2 : ℚ) ^ 52 ≤ y / ulp64 y := by
        rw [le_div_iff₀ (ulp64_pos y)]
        refine le_trans ?_ (log_lower hy)
        unfold ulp64
        rw [show (2 : ℚ) ^ 52 = 2 ^ (52 : ℤ) by norm_cast, ← zpow_add₀ (by norm_num)]
        exact zpow_le (by omega)
      have : (2 ^ 52 : ℤ) ≤ rne (y / ulp64 y) := le_rne (by exact_mod_cast hq)
      exact_mod_cast this
    calc (rne (x / ulp64 x) : ℚ) * ulp64 x ≤ 2 ^ 53 * ulp64 x := mul_le_mul_of_nonneg_right h1 (ulp64_pos x).le
      _ ≤ 2 ^ 52 * ulp64 y := by
        unfold ulp64
        rw [show (2 : ℚ) ^ 53 = 2 ^ (53 : ℤ) by norm_cast, show (2 : ℚ) ^ 52 = 2 ^ (52 : ℤ) by norm_cast,
          ← zpow_add₀ (by norm_num), ← zpow_add₀ (by norm_num)]
        exact zpow_le (by omega)
      _ ≤ _ := mul_le_mul_of_nonneg_right h2 (ulp64_pos y).le

theorem rnd64_mono {x y : ℚ} (h : x ≤ y) : rnd64 x ≤ rnd64 y := by
  rcases le_total 0 x with hx | hx
  · exact rnd64_mono_nonneg hx h
  · rcases le_total 0 y with hy | hy
    · have := rnd64_nonneg (x := -x) (by linarith)
      rw [rnd64_neg] at this
      exact (by linarith : rnd64 x ≤ 0).trans (rnd64_nonneg hy)
    · have := rnd64_mono_nonneg (x := -y) (y := -x) (by linarith) (by linarith)
      rw [rnd64_neg, rnd64_neg] at this
      linarith

/-- An integer multiple of the unit is a double. -/
theorem rnd64_exact {x : ℚ} (hx : 0 ≤ x) (m : ℤ) (h : x = m * ulp64 x) : rnd64 x = x := by
  rw [rnd64_nonneg_eq hx]
  have : x / ulp64 x = m := by rw [div_eq_iff (ulp64_pos x).ne']; exact h
  rw [this, rne_int]
  exact h.symm

theorem rnd64_idem_nonneg {x : ℚ} (hx : 0 ≤ x) : rnd64 (rnd64 x) = rnd64 x := by
  have hr := rnd64_nonneg hx
  rcases hr.lt_or_eq with hp | h0
  swap
  · rw [← h0, rnd64_zero]
  obtain ⟨m, a, ha, hm, hm53⟩ : ∃ (m : ℤ) (a : ℤ), -1074 ≤ a ∧ rnd64 x = m * (2 : ℚ) ^ a ∧ (m : ℚ) ≤ 2 ^ 53 := by
    refine ⟨rne (x / ulp64 x), _, le_max_right _ _, rnd64_nonneg_eq hx, ?_⟩
    have : rne (x / ulp64 x) ≤ (2 ^ 53 : ℤ) :=
      rne_le (by push_cast; rw [div_le_iff₀ (ulp64_pos x), mul_comm]; exact quot_lt.le)
    exact_mod_cast this
  set r := rnd64 x with hrd
  set c := max (Int.log 2 r - 52) (-1074) with hc
  have hcu : ulp64 r = 2 ^ c := rfl
  by_cases hca : c ≤ a
  · refine rnd64_exact hr (m * 2 ^ (a - c).toNat) ?_
    rw [hcu, hm]
    push_cast
    rw [mul_assoc, ← zpow_natCast, ← zpow_add₀ (by norm_num)]
    congr 2
    omega
  · have hlog : Int.log 2 r - 52 = c := by omega
    have h1 : (2 : ℚ) ^ (c + 52) ≤ r := by
      rw [show c + 52 = Int.log 2 r by omega]; exact log_lower hp
    have h2 : r ≤ 2 ^ (a + 53) := by
      rw [hm, zpow_add₀ (by norm_num), mul_comm]
      exact mul_le_mul_of_nonneg_left (by exact_mod_cast hm53) (two_zpow_pos a).le
    have h3 : c + 52 ≤ a + 53 := by
      by_contra hlt
      have : (2 : ℚ) ^ (a + 53) < 2 ^ (c + 52) := zpow_lt_zpow_right₀ (by norm_num) (by omega)
      linarith
    have h4 : c + 52 = a + 53 := by omega
    have h5 : r = 2 ^ (c + 52) := le_antisymm (h4 ▸ h2) h1
    refine rnd64_exact hr (2 ^ 52) ?_
    rw [hcu]
    conv_lhs => rw [h5]
    rw [zpow_add₀ (by norm_num)]
    push_cast
    rw [mul_comm]

theorem rnd64_idem (x : ℚ) : rnd64 (rnd64 x) = rnd64 x := by
  rcases le_total 0 x with h | h
  · exact rnd64_idem_nonneg h
  · have := rnd64_idem_nonneg (x := -x) (by linarith)
    rw [rnd64_neg, rnd64_neg] at this
    linarith

/-- The relative error for numbers that are not subnormal. -/
theorem rnd64_lower {x : ℚ} (h : (2 : ℚ) ^ (-1022 : ℤ) ≤ x) : (1 - 1 / 2 ^ 53) * x ≤ rnd64 x := by
  have hx : 0 < x := (two_zpow_pos _).trans_le h
  have hl : -1022 ≤ Int.log 2 x := by
    by_contra hlt
    have h1 := log_upper x
    have h2 : (2 : ℚ) ^ (Int.log 2 x + 1) ≤ 2 ^ (-1022 : ℤ) := zpow_le (by omega)
    linarith
  have hu : ulp64 x * 2 ^ 52 ≤ x := by
    refine le_trans ?_ (log_lower hx)
    unfold ulp64
    rw [show (2 : ℚ) ^ 52 = 2 ^ (52 : ℤ) by norm_cast, ← zpow_add₀ (by norm_num)]
    exact zpow_le (by omega)
  rw [rnd64_nonneg_eq hx.le]
  have he := (abs_le.1 (rne_err (x / ulp64 x))).1
  have hm : (x / ulp64 x - 1 / 2) * ulp64 x ≤ (rne (x / ulp64 x) : ℚ) * ulp64 x :=
    mul_le_mul_of_nonneg_right (by linarith) (ulp64_pos x).le
  rw [sub_mul, div_mul_cancel₀ _ (ulp64_pos x).ne'] at hm
  have : ulp64 x ≤ x / 2 ^ 52 := by rw [le_div_iff₀ (by norm_num)]; exact hu
  norm_num at this hm ⊢
  linarith

namespace Dbl

theorem add_num {x y : Dbl} {q : ℚ} (h : x + y = fin q) :
    ∃ a b, x = fin a ∧ y = fin b ∧ q = rnd64 (a + b) := by
  change add x y = fin q at h
  cases x <;> cases y <;> simp only [add] at h
  all_goals first | (exact absurd h (by simp)) | skip
  · split at h <;> simp at h
  · unfold ofRat at h
    split at h
    · exact ⟨_, _, rfl, rfl, by simpa using h.symm⟩
    · simp at h

theorem sub_num {x y : Dbl} {q : ℚ} (h : x - y = fin q) :
    ∃ a b, x = fin a ∧ y = fin b ∧ q = rnd64 (a - b) := by
  change x + neg y = fin q at h
  obtain ⟨a, b, h1, h2, h3⟩ := add_num h
  cases y <;> simp only [neg] at h2
  · simp at h2
  · simp at h2
  · rename_i y
    refine ⟨a, y, h1, rfl, ?_⟩
    have : b = -y := by simpa using h2.symm
    rw [h3, this, sub_eq_add_neg]

theorem mul_num {x y : Dbl} {q : ℚ} (h : x * y = fin q) :
    ∃ a b, x = fin a ∧ y = fin b ∧ q = rnd64 (a * b) := by
  change mul x y = fin q at h
  cases x <;> cases y <;> simp only [mul] at h
  all_goals first | (exact absurd h (by simp)) | skip
  · split at h <;> simp at h
  · split at h <;> simp at h
  · unfold ofRat at h
    split at h
    · exact ⟨_, _, rfl, rfl, by simpa using h.symm⟩
    · simp at h

theorem fma_num {x y z : Dbl} {q : ℚ} (h : fma x y z = fin q) :
    ∃ a b c, x = fin a ∧ y = fin b ∧ z = fin c ∧ q = rnd64 (a * b + c) := by
  by_cases hf : ∃ a b c, x = fin a ∧ y = fin b ∧ z = fin c
  · obtain ⟨a, b, c, rfl, rfl, rfl⟩ := hf
    unfold fma ofRat at h
    dsimp only at h
    split at h
    · exact ⟨_, _, _, rfl, rfl, rfl, by simpa using h.symm⟩
    · simp at h
  · exfalso
    have h' : x * y + z = fin q := by
      cases x <;> cases y <;> cases z <;> first | exact h | exact absurd ⟨_, _, _, rfl, rfl, rfl⟩ hf
    obtain ⟨p, c, h1, h2, -⟩ := add_num h'
    obtain ⟨a, b, h3, h4, -⟩ := mul_num h1
    exact hf ⟨a, b, c, h3, h4, h2⟩

end Dbl

open Dbl

theorem lt_num {x : Dbl} {t : ℚ} (h : Dbl.lt x (fin t) = true) (h0 : x ≠ inf true) : ∃ q, x = fin q ∧ q < t := by
  cases x with
  | nan => simp [Dbl.lt] at h
  | inf a => cases a <;> simp_all [Dbl.lt]
  | fin q => exact ⟨q, rfl, by simpa [Dbl.lt] using h⟩

theorem summed_num {xs : List Dbl} {v : Dbl} (h : Summed xs v) (hxs : ∀ x ∈ xs, Ok x ∧ ∀ q, x = fin q → 0 ≤ q) :
    ∀ q, v = fin q → 0 ≤ q ∧ rnd64 q = q ∧ ∀ x ∈ xs, ∃ y, x = fin y ∧ y ≤ q := by
  induction h with
  | nil =>
    intro q hq
    have : q = 0 := (Dbl.fin.inj hq).symm
    subst this
    exact ⟨le_rfl, rnd64_zero, by simp⟩
  | one x =>
    rintro q rfl
    obtain ⟨h1, h2⟩ := hxs _ (List.mem_singleton.2 rfl)
    refine ⟨h2 q rfl, h1 q rfl, fun x hx => ?_⟩
    exact ⟨q, List.mem_singleton.1 hx, le_rfl⟩
  | @add xs ys zs a b _ _ hz iha ihb =>
    intro q hq
    obtain ⟨p, p', rfl, rfl, rfl⟩ := add_num hq
    obtain ⟨a1, a2, a3⟩ := iha (fun x hx => hxs x (hz.mem_iff.2 (List.mem_append_left _ hx))) p rfl
    obtain ⟨b1, b2, b3⟩ := ihb (fun x hx => hxs x (hz.mem_iff.2 (List.mem_append_right _ hx))) p' rfl
    refine ⟨rnd64_nonneg (by linarith), rnd64_idem _, fun x hx => ?_⟩
    rcases List.mem_append.1 (hz.mem_iff.1 hx) with hx | hx
    · obtain ⟨y, e, hy⟩ := a3 x hx
      exact ⟨y, e, hy.trans (a2.ge.trans (rnd64_mono (by linarith)))⟩
    · obtain ⟨y, e, hy⟩ := b3 x hx
      exact ⟨y, e, hy.trans (b2.ge.trans (rnd64_mono (by linarith)))⟩

theorem squares_num {xs : List Dbl} {v : Dbl} (h : SquaresSummed xs v) :
    ∀ q, v = fin q → 0 ≤ q ∧ rnd64 q = q ∧ ∀ x ∈ xs, ∃ y, x = fin y ∧ rnd64 (y * y) ≤ q := by
  induction h with
  | nil =>
    intro q hq
    have : q = 0 := (Dbl.fin.inj hq).symm
    subst this
    exact ⟨le_rfl, rnd64_zero, by simp⟩
  | one x =>
    intro q hq
    obtain ⟨a, b, h1, h2, rfl⟩ := mul_num hq
    have : b = a := by rw [h1] at h2; simpa using h2.symm
    subst this
    refine ⟨rnd64_nonneg (mul_self_nonneg _), rnd64_idem _, fun x hx => ?_⟩
    exact ⟨b, by rw [List.mem_singleton.1 hx, h1], le_rfl⟩
  | @fused xs zs a x _ hz ih =>
    intro q hq
    obtain ⟨y, y', c, h1, h2, rfl, rfl⟩ := fma_num hq
    have : y' = y := by rw [h1] at h2; simpa using h2.symm
    subst this
    obtain ⟨a1, a2, a3⟩ := ih c rfl
    have hsq := mul_self_nonneg y'
    refine ⟨rnd64_nonneg (by linarith), rnd64_idem _, fun z hz' => ?_⟩
    rcases List.mem_cons.1 (hz.mem_iff.1 hz') with rfl | hx
    · exact ⟨y', h1, rnd64_mono (by linarith)⟩
    · obtain ⟨w, e, hw⟩ := a3 z hx
      exact ⟨w, e, hw.trans (a2.ge.trans (rnd64_mono (by linarith)))⟩
  | @add xs ys zs a b _ _ hz iha ihb =>
    intro q hq
    obtain ⟨p, p', rfl, rfl, rfl⟩ := add_num hq
    obtain ⟨a1, a2, a3⟩ := iha p rfl
    obtain ⟨b1, b2, b3⟩ := ihb p' rfl
    refine ⟨rnd64_nonneg (by linarith), rnd64_idem _, fun x hx => ?_⟩
    rcases List.mem_append.1 (hz.mem_iff.1 hx) with hx | hx
    · obtain ⟨y, e, hy⟩ := a3 x hx
      exact ⟨y, e, hy.trans (a2.ge.trans (rnd64_mono (by linarith)))⟩
    · obtain ⟨y, e, hy⟩ := b3 x hx
      exact ⟨y, e, hy.trans (b2.ge.trans (rnd64_mono (by linarith)))⟩

/-- A largest value that is a number bounds the entries, and these are numbers. -/
theorem foldl_max_num (xs : List Dbl) : ∀ (x : Dbl), (∀ y ∈ x :: xs, y ≠ inf true) →
    ∀ q, xs.foldl Dbl.max x = fin q → ∀ y ∈ x :: xs, ∃ z, y = fin z ∧ z ≤ q := by
  induction xs with
  | nil =>
    rintro x - q hq y hy
    exact ⟨q, (List.mem_singleton.1 hy).trans hq, le_rfl⟩
  | cons a xs ih =>
    intro x hxs q hq y hy
    have hm := ih (Dbl.max x a) (by
      intro z hz
      rcases List.mem_cons.1 hz with rfl | hz
      · have h1 := hxs x (by simp)
        have h2 := hxs a (by simp)
        cases x <;> cases a <;> simp only [Dbl.max] <;> first | (split <;> assumption) | simp
      · exact hxs z (by simp [hz])) q hq
    obtain ⟨z, hz, hzq⟩ := hm _ (List.mem_cons_self ..)
    have key : ∃ p p', x = fin p ∧ a = fin p' ∧ p ≤ z ∧ p' ≤ z := by
      have h1 := hxs x (by simp)
      have h2 := hxs a (by simp)
      cases x with
      | nan => simp [Dbl.max] at hz
      | inf b =>
        cases b
        · cases a with
          | nan => simp [Dbl.max] at hz
          | inf b => cases b <;> simp_all [Dbl.max, Dbl.lt]
          | fin p' => simp [Dbl.max, Dbl.lt] at hz
        · exact absurd rfl h1
      | fin p =>
        cases a with
        | nan => simp [Dbl.max] at hz
        | inf b => cases b <;> simp_all [Dbl.max, Dbl.lt]
        | fin p' =>
          refine ⟨p, p', rfl, rfl, ?_⟩
          simp only [Dbl.max, Dbl.lt, decide_eq_true_eq] at hz
          split at hz
          · have : p' = z := by simpa using hz
            constructor <;> linarith
          · have : p = z := by simpa using hz
            constructor <;> linarith
    obtain ⟨p, p', rfl, rfl, hp, hp'⟩ := key
    rcases List.mem_cons.1 hy with rfl | hy
    · exact ⟨p, rfl, hp.trans hzq⟩
    rcases List.mem_cons.1 hy with rfl | hy
    · exact ⟨p', rfl, hp'.trans hzq⟩
    · exact hm y (List.mem_cons_of_mem _ hy)

theorem abs_num {x : Dbl} {q : ℚ} (h : Dbl.abs x = fin q) : ∃ y, x = fin y ∧ q = |y| := by
  cases x with
  | nan => simp [Dbl.abs] at h
  | inf a => simp [Dbl.abs] at h
  | fin y => exact ⟨y, rfl, by simpa [Dbl.abs] using h.symm⟩

theorem abs_ok {x : Dbl} (h : Ok x) : Ok (Dbl.abs x) ∧ ∀ q, Dbl.abs x = fin q → 0 ≤ q := by
  refine ⟨fun q hq => ?_, fun q hq => ?_⟩
  · obtain ⟨y, rfl, rfl⟩ := abs_num hq
    rcases abs_choice y with e | e
    · rw [e]; exact h y rfl
    · rw [e, rnd64_neg, h y rfl]
  · obtain ⟨y, rfl, rfl⟩ := abs_num hq
    exact abs_nonneg y

theorem abs_ne_neg (x : Dbl) : Dbl.abs x ≠ inf true := by cases x <;> simp [Dbl.abs]

/-- A norm is never `-inf`. -/
theorem summed_ne_neg {xs : List Dbl} {v : Dbl} (h : Summed xs v) (hxs : ∀ x ∈ xs, x ≠ inf true ∧ ∀ q, x = fin q → 0 ≤ q) :
    v ≠ inf true ∧ ∀ q, v = fin q → 0 ≤ q := by
  induction h with
  | nil =>
    refine ⟨fun h => Dbl.noConfusion h, fun q hq => ?_⟩
    have : q = 0 := (Dbl.fin.inj hq).symm
    exact this.ge
  | one x => exact hxs x (by simp)
  | @add xs ys zs a b _ _ hz iha ihb =>
    obtain ⟨a1, a2⟩ := iha (fun x hx => hxs x (hz.mem_iff.2 (List.mem_append_left _ hx)))
    obtain ⟨b1, b2⟩ := ihb (fun x hx => hxs x (hz.mem_iff.2 (List.mem_append_right _ hx)))
    change add a b ≠ _ ∧ ∀ q, add a b = _ → _
    cases a with
    | nan => simp [add]
    | inf s =>
      cases b with
      | nan => simp [add]
      | inf s' => cases s <;> cases s' <;> simp_all [add]
      | fin y => cases s <;> simp_all [add]
    | fin x =>
      cases b with
      | nan => simp [add]
      | inf s' => cases s' <;> simp_all [add]
      | fin y =>
        have hx := a2 x rfl
        have hy := b2 y rfl
        simp only [add, ofRat]
        split
        · refine ⟨by simp, fun q hq => ?_⟩
          have : rnd64 (x + y) = q := by simpa using hq
          rw [← this]
          exact rnd64_nonneg (by linarith)
        · have : ¬ x + y < 0 := by linarith
          simp [this]

theorem foldl_max_ne_neg (xs : List Dbl) : ∀ x : Dbl, x ≠ inf true → (∀ y ∈ xs, y ≠ inf true) →
    xs.foldl Dbl.max x ≠ inf true := by
  induction xs with
  | nil => intro x hx _; exact hx
  | cons a xs ih =>
    intro x hx hxs
    refine ih _ ?_ fun y hy => hxs y (List.mem_cons_of_mem _ hy)
    have h2 := hxs a (by simp)
    cases x <;> cases a <;> simp only [Dbl.max] <;> first | (split <;> assumption) | simp

theorem isNorm_ne_neg {o : TNorm} {xs : List Dbl} {v : Dbl} (h : IsNorm o xs v) : v ≠ inf true := by
  cases o with
  | one =>
    refine (summed_ne_neg h ?_).1
    intro x hx
    obtain ⟨y, -, rfl⟩ := List.mem_map.1 hx
    refine ⟨abs_ne_neg y, fun q hq => ?_⟩
    obtain ⟨z, rfl, rfl⟩ := abs_num hq
    exact abs_nonneg z
  | two =>
    obtain ⟨s, -, hr⟩ := h
    cases hr <;> simp
  | sup =>
    change v = _ at h
    subst h
    cases xs with
    | nil => exact fun h => Dbl.noConfusion h
    | cons x xs =>
      refine foldl_max_ne_neg _ _ (abs_ne_neg x) ?_
      intro y hy
      obtain ⟨z, -, rfl⟩ := List.mem_map.1 hy
      exact abs_ne_neg z

/-- The entries of a vector whose norm is a number are numbers. -/
theorem isNorm_num {o : TNorm} {xs : List Dbl} {q : ℚ} (h : IsNorm o xs (fin q)) (hok : ∀ x ∈ xs, Ok x) :
    ∀ x ∈ xs, ∃ y, x = fin y ∧ (match o with
      | .one => |y| ≤ q
      | .two => ∃ s, rnd64 (y * y) ≤ s ∧ Root (fin s) (fin q)
      | .sup => |y| ≤ q) := by
  intro x hx
  cases o with
  | one =>
    obtain ⟨-, -, h3⟩ := summed_num (xs := xs.map Dbl.abs) h (fun y hy => by
      obtain ⟨z, hz, rfl⟩ := List.mem_map.1 hy
      exact abs_ok (hok z hz)) q rfl
    obtain ⟨y, h1, h2⟩ := h3 _ (List.mem_map_of_mem hx)
    obtain ⟨z, rfl, rfl⟩ := abs_num h1
    exact ⟨z, rfl, h2⟩
  | two =>
    obtain ⟨s, hs, hr⟩ := h
    cases hr with
    | fin a1 a2 a3 a4 =>
      rename_i s
      obtain ⟨-, -, h3⟩ := squares_num hs s rfl
      obtain ⟨y, rfl, h2⟩ := h3 x hx
      exact ⟨y, rfl, s, h2, .fin a1 a2 a3 a4⟩
  | sup =>
    change fin q = _ at h
    cases xs with
    | nil => simp at hx
    | cons a xs =>
      obtain ⟨y, h1, h2⟩ := foldl_max_num (xs.map Dbl.abs) (Dbl.abs a) (by
        intro y hy
        rw [← List.map_cons] at hy
        obtain ⟨z, -, rfl⟩ := List.mem_map.1 hy
        exact abs_ne_neg z) q h.symm (Dbl.abs x) (by
          rw [← List.map_cons]; exact List.mem_map_of_mem hx)
      obtain ⟨z, rfl, rfl⟩ := abs_num h1
      exact ⟨z, rfl, h2⟩

end Pymgrit.Ieee
