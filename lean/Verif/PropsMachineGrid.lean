import Verif.MachineGridProofs
import Verif.PropsDouble

/-!
# C139: the time grids of the induction machine experiments

The finest level keeps every `m`-th point of an equidistant grid and its predecessor; the coarser levels are equidistant grids
computed on their own, in double precision, with factors that need not be powers of two (42 in the shipped experiments).
-/

namespace Pymgrit.MachineGrid

open Double

/-- All points `a + i (b - a) / n` are multiples of one power of two, by integers below `2 ^ 53` in absolute value. -/
def Dyadic (a b : ℚ) (n : Nat) : Prop :=
  ∃ za zh e : ℤ, a = za * 2 ^ e ∧ b = (za + n * zh : ℤ) * 2 ^ e ∧ 0 < zh ∧ |za| + n * zh < 2 ^ 53

/-- C139.  On such an interval `np.linspace` makes no rounding error at all, for any number of intervals that divides `n`. -/
theorem C139_exact {a b : ℚ} {n c : Nat} (h : Dyadic a b n) (hn : 0 < n) (hc : c ∣ n) :
    linspace a b c = (List.range (c + 1)).map fun i : Nat => a + i * ((b - a) / c) := by
  obtain ⟨za, zh, e, rfl, rfl, hzh, hz⟩ := h
  obtain ⟨q, rfl⟩ := hc
  have hc : 0 < c := Nat.pos_of_mul_pos_right hn
  apply List.ext_getElem?
  intro i
  by_cases hi : i ≤ c
  · rw [linspace_get _ _ hi, List.getElem?_map, List.getElem?_range (by omega)]
    push_cast at hz
    have := entry_dyadic (e := e) hc (q := q) (za := za) (zh := zh) (by rw [abs_of_pos hzh]; exact hz) hi
    push_cast at this ⊢
    rw [this]
    simp only [Option.map_some, Option.some.injEq]
    have : (c : ℚ) ≠ 0 := by exact_mod_cast hc.ne'
    field_simp
    ring
  · rw [List.getElem?_eq_none (by rw [linspace_length]; omega), List.getElem?_eq_none (by simp; omega)]

/-- The step is positive. -/
theorem Dyadic.step_pos {a b : ℚ} {n : Nat} (h : Dyadic a b n) (hn : 0 < n) : 0 < b - a := by
  obtain ⟨za, zh, e, rfl, rfl, hzh, hz⟩ := h
  have h1 : (0 : ℚ) < n := by exact_mod_cast hn
  have h2 : (0 : ℚ) < zh := by exact_mod_cast hzh
  have h3 := two_zpow_pos e
  have : ((za + n * zh : ℤ) : ℚ) * 2 ^ e - za * 2 ^ e = n * zh * 2 ^ e := by push_cast; ring
  rw [this]
  exact mul_pos (mul_pos h1 h2) h3

/-- C139.  The indices kept on the finest level: the multiples of `m` at the even places, before each of them its predecessor. -/
theorem C139_kept (n : Nat) {m : Nat} (hm : 2 ≤ m) :
    (firstLevel (n + 1) m).length = 2 * (n / m) + 1 ∧
    (∀ c, c ≤ n / m → (firstLevel (n + 1) m)[2 * c]? = some (m * c)) ∧
    (∀ c, c < n / m → (firstLevel (n + 1) m)[2 * c + 1]? = some (m * (c + 1) - 1)) := by
  rw [firstLevel_eq n hm]
  refine ⟨by simp, fun c hc => ?_, fun c hc => ?_⟩
  · rw [List.getElem?_map, List.getElem?_range (by omega)]
    simp [place]
  · rw [List.getElem?_map, List.getElem?_range (by omega)]
    simp only [Option.map_some, place, Option.some.injEq]
    rw [if_neg (by omega), show (2 * c + 1) / 2 = c by omega]

/-- Point `k` of the finest level. -/
theorem level0_get {a b : ℚ} {n m k : Nat} (h : Dyadic a b n) (hn : 0 < n) (hm : 2 ≤ m) (hk : k ≤ 2 * (n / m)) :
    (thinned (linspace a b n) m)[k]? = some (a + (place m k : Nat) * ((b - a) / n)) := by
  rw [thinned_get hm (linspace_length a b n) hk, C139_exact h hn (dvd_refl n), List.getElem?_map,
    List.getElem?_range (by have := place_le hm hk; omega)]
  rfl

theorem affine_lt {a h : ℚ} (hh : 0 < h) {i j : Nat} (hij : i < j) : a + i * h < a + j * h := by
  have : (i : ℚ) < j := by exact_mod_cast hij
  have := mul_lt_mul_of_pos_right this hh
  linarith

theorem affine_inj {a h : ℚ} (hh : 0 < h) {i j : Nat} (e : a + i * h = a + j * h) : i = j := by
  rcases Nat.lt_trichotomy i j with h1 | h1 | h1
  · exact absurd e (affine_lt hh h1).ne
  · exact h1
  · exact absurd e (affine_lt hh h1).ne'

theorem level0_sorted {a b : ℚ} {n m : Nat} (h : Dyadic a b n) (hn : 0 < n) (hm : 2 ≤ m) :
    (thinned (linspace a b n) m).Pairwise (· < ·) := by
  have hh : 0 < (b - a) / n := div_pos (h.step_pos hn) (by exact_mod_cast hn)
  rw [List.pairwise_iff_getElem]
  intro i j hi hj hij
  rw [thinned_length hm (linspace_length a b n)] at hi hj
  have gi := level0_get h hn hm (k := i) (by omega)
  have gj := level0_get h hn hm (k := j) (by omega)
  obtain ⟨_, gi⟩ := List.getElem?_eq_some_iff.mp gi
  obtain ⟨_, gj⟩ := List.getElem?_eq_some_iff.mp gj
  rw [gi, gj]
  exact affine_lt hh (place_lt hm hij)

theorem coarse_get {a b : ℚ} {n c i : Nat} (h : Dyadic a b n) (hn : 0 < n) (hc : c ∣ n) (hi : i ≤ c) :
    (linspace a b c)[i]? = some (a + ((n / c * i : Nat) : ℚ) * ((b - a) / n)) := by
  rw [C139_exact h hn hc, List.getElem?_map, List.getElem?_range (by omega)]
  obtain ⟨q, rfl⟩ := hc
  have hc0 : 0 < c := Nat.pos_of_mul_pos_right hn
  have hq0 : 0 < q := Nat.pos_of_mul_pos_left hn
  have hc' : (c : ℚ) ≠ 0 := by exact_mod_cast hc0.ne'
  have hq' : (q : ℚ) ≠ 0 := by exact_mod_cast hq0.ne'
  rw [Nat.mul_div_cancel_left q hc0]
  simp only [Option.map_some, Option.some.injEq]
  push_cast
  field_simp

theorem coarse_sorted {a b : ℚ} {n c : Nat} (h : Dyadic a b n) (hn : 0 < n) (hc : c ∣ n) :
    (linspace a b c).Pairwise (· < ·) := by
  have hc0 : 0 < c := Nat.pos_of_dvd_of_pos hc hn
  have hh : 0 < (b - a) / c := div_pos (h.step_pos hn) (by exact_mod_cast hc0)
  rw [C139_exact h hn hc, List.pairwise_map]
  exact List.pairwise_lt_range.imp fun hij => affine_lt hh hij

/-- C139.  The levels form a valid hierarchy – increasing times, coarse points contained in the next finer grid, common start – if the
complete grid has a number of intervals divisible by `m`, and each level divides the number of intervals of the one before by any
integer. -/
theorem C139_valid {a b : ℚ} {n m : Nat} {ns : List Nat} (h : Dyadic a b n) (hn : 0 < n) (hm : 2 ≤ m) (hmn : m ∣ n)
    (hfirst : ∀ c, ns[0]? = some c → c ∣ n / m) (hdiv : ∀ (l c d : Nat), ns[l]? = some c → ns[l + 1]? = some d → d ∣ c) :
    Valid (machineLevels a b n m ns) := by
  have hq : n / m ∣ n := Nat.div_dvd_of_dvd hmn
  have hall : ∀ (l c : Nat), ns[l]? = some c → c ∣ n / m := by
    intro l
    induction l with
    | zero => exact hfirst
    | succ l ih =>
      intro c hc
      have hl : l < ns.length := by have := (List.getElem?_eq_some_iff.mp hc).1; omega
      have hl' : ns[l]? = some ns[l] := List.getElem?_eq_getElem hl
      exact (hdiv l _ c hl' hc).trans (ih _ hl')
  have hg0 : grid (machineLevels a b n m ns) 0 = thinned (linspace a b n) m := rfl
  have hgs : ∀ (l c : Nat), ns[l]? = some c → grid (machineLevels a b n m ns) (l + 1) = linspace a b c := by
    intro l c hl
    simp [grid, machineLevels, hl, List.getD_eq_getElem?_getD]
  have hlen : (machineLevels a b n m ns).length = ns.length + 1 := by simp [machineLevels]
  have hh0 : (thinned (linspace a b n) m).head? = some a := by
    rw [List.head?_eq_getElem?, level0_get h hn hm (Nat.zero_le _)]
    simp [place]
  refine ⟨by omega, ?_, ?_, ?_, ?_⟩
  · rw [hg0]
    intro e
    rw [e] at hh0
    simp at hh0
  · intro l
    cases l with
    | zero => rw [hg0]; exact level0_sorted h hn hm
    | succ l =>
      cases hl : ns[l]? with
      | none =>
        have : grid (machineLevels a b n m ns) (l + 1) = [] := by
          simp [grid, machineLevels, hl, List.getD_eq_getElem?_getD]
        rw [this]; exact List.Pairwise.nil
      | some c => rw [hgs l c hl]; exact coarse_sorted h hn ((hall l c hl).trans hq)
  · intro l hl x hx
    have hl' : ns[l]? = some ns[l] := List.getElem?_eq_getElem (by omega)
    have hcq := hall l _ hl'
    set c := ns[l] with hcdef
    have hcn : c ∣ n := hcq.trans hq
    have hc0 : 0 < c := Nat.pos_of_dvd_of_pos hcn hn
    rw [hgs l c hl'] at hx
    obtain ⟨i, hi, e⟩ := List.mem_iff_getElem.mp hx
    rw [linspace_length] at hi
    have gi := coarse_get h hn hcn (i := i) (by omega)
    rw [List.getElem?_eq_getElem (by rw [linspace_length]; exact hi), e] at gi
    have gi := Option.some.inj gi
    cases l with
    | zero =>
      rw [hg0, gi]
      -- place of the point on the finest level
      obtain ⟨q, hq'⟩ := hcq
      have e1 : n / c = m * q := by
        obtain ⟨r, rfl⟩ := hmn
        rw [Nat.mul_div_cancel_left r (by omega)] at hq'
        rw [hq', show m * (c * q) = c * (m * q) by ring, Nat.mul_div_cancel_left _ hc0]
      have hk : 2 * (q * i) ≤ 2 * (n / m) := by
        rw [hq', Nat.mul_comm c q]
        exact Nat.mul_le_mul_left 2 (Nat.mul_le_mul_left q (by omega))
      have g := level0_get h hn hm hk
      have e2 : place m (2 * (q * i)) = n / c * i := by
        unfold place
        rw [if_pos (by omega), show 2 * (q * i) / 2 = q * i by omega, e1, Nat.mul_assoc]
      rw [e2] at g
      exact List.mem_of_getElem? g
    | succ l =>
      have hp' : ns[l]? = some ns[l] := List.getElem?_eq_getElem (by omega)
      rw [hgs l _ hp', gi]
      set p := ns[l] with hpdef
      have hpn : p ∣ n := (hall l p hp').trans hq
      obtain ⟨q, hq'⟩ := hdiv l p c hp' hl'
      have hp0 : 0 < p := Nat.pos_of_dvd_of_pos hpn hn
      have hk : q * i ≤ p := by
        rw [hq', Nat.mul_comm c q]
        exact Nat.mul_le_mul_left q (by omega)
      have g := coarse_get h hn hpn hk
      have e1 : n / c = n / p * q := by
        obtain ⟨r, hr⟩ := hpn
        rw [hr, Nat.mul_div_cancel_left r hp0, hq', show c * q * r = c * (r * q) by ring, Nat.mul_div_cancel_left _ hc0]
      rw [← Nat.mul_assoc, ← e1] at g
      exact List.mem_of_getElem? g
  · intro l hl
    rw [hg0, hh0]
    cases l with
    | zero => rw [hg0, hh0]
    | succ l =>
      have hl' : ns[l]? = some ns[l] := List.getElem?_eq_getElem (by omega)
      rw [hgs l _ hl', List.head?_eq_getElem?, coarse_get h hn ((hall l _ hl').trans hq) (Nat.zero_le _)]
      simp

/-- C139.  On the finest level C-points and F-points alternate: a long step of `m - 1` intervals to each F-point, a short step of one
interval to each C-point. -/
theorem C139_alternate {a b : ℚ} {n m : Nat} {ns : List Nat} (h : Dyadic a b n) (hn : 0 < n) (hm : 2 ≤ m) (hmn : m ∣ n) {k : Nat}
    (hk : k < npts (machineLevels a b n m (n / m :: ns)) 0) :
    (tAt (grid (machineLevels a b n m (n / m :: ns)) 0) k ∈ grid (machineLevels a b n m (n / m :: ns)) 1 ↔ k % 2 = 0) ∧
    (k + 1 < npts (machineLevels a b n m (n / m :: ns)) 0 →
      tAt (grid (machineLevels a b n m (n / m :: ns)) 0) (k + 1) - tAt (grid (machineLevels a b n m (n / m :: ns)) 0) k
        = (if k % 2 = 0 then (m : ℚ) - 1 else 1) * ((b - a) / n)) := by
  have hg0 : grid (machineLevels a b n m (n / m :: ns)) 0 = thinned (linspace a b n) m := rfl
  have hg1 : grid (machineLevels a b n m (n / m :: ns)) 1 = linspace a b (n / m) := rfl
  have hq : n / m ∣ n := Nat.div_dvd_of_dvd hmn
  have hh : 0 < (b - a) / n := div_pos (h.step_pos hn) (by exact_mod_cast hn)
  unfold npts at hk ⊢
  rw [hg0, thinned_length hm (linspace_length a b n)] at hk
  rw [hg0, hg1, thinned_length hm (linspace_length a b n)]
  have hat : ∀ j, j ≤ 2 * (n / m) → tAt (thinned (linspace a b n) m) j = a + (place m j : Nat) * ((b - a) / n) := by
    intro j hj
    rw [tAt, List.getD_eq_getElem?_getD, level0_get h hn hm hj]
    rfl
  rw [hat k (by omega)]
  have hnm : n / (n / m) = m := Nat.div_div_self hmn hn.ne'
  constructor
  · constructor
    · intro hx
      obtain ⟨i, hi, e⟩ := List.mem_iff_getElem.mp hx
      rw [linspace_length] at hi
      have gi := coarse_get h hn hq (i := i) (by omega)
      rw [List.getElem?_eq_getElem (by rw [linspace_length]; exact hi), e, hnm] at gi
      have e' := affine_inj hh (Option.some.inj gi)
      unfold place at e'
      split at e'
      · assumption
      · exfalso
        have h1 : 0 < m * (k / 2 + 1) := Nat.mul_pos (by omega) (by omega)
        have h2 : m * i + 1 = m * (k / 2 + 1) := by omega
        have h3 : (m * i + 1) % m = (m * (k / 2 + 1)) % m := by rw [h2]
        rw [Nat.mul_add_mod, Nat.mul_mod_right, Nat.mod_eq_of_lt (by omega)] at h3
        omega
    · intro he
      have g := coarse_get h hn hq (i := k / 2) (by omega)
      rw [hnm] at g
      unfold place
      rw [if_pos he]
      exact List.mem_of_getElem? g
  · intro hk1
    rw [hat (k + 1) (by omega)]
    have e : m * (k / 2 + 1) = m * (k / 2) + m := by ring
    rcases Nat.mod_two_eq_zero_or_one k with he | he
    · have p0 : place m k = m * (k / 2) := by unfold place; rw [if_pos he]
      have p1 : place m (k + 1) = m * (k / 2) + m - 1 := by
        unfold place
        rw [if_neg (by omega), show (k + 1) / 2 = k / 2 by omega, e]
      rw [p0, p1, if_pos he, Nat.cast_sub (by omega)]
      push_cast
      ring
    · have p0 : place m k = m * (k / 2) + m - 1 := by unfold place; rw [if_neg (by omega), e]
      have p1 : place m (k + 1) = m * (k / 2) + m := by
        unfold place
        rw [if_pos (by omega), show (k + 1) / 2 = k / 2 + 1 by omega, e]
      rw [p0, p1, if_neg (by omega), Nat.cast_sub (by omega)]
      push_cast
      ring

/-- C139.  The internal time step handed to the external solver, `(t[1] - t[0]) / steps_per_solve` with one internal step per interval
(src/pymgrit/induction_machine/induction_machine.py:62), is exactly the interval of the complete grid: the steps of the thinned grid are
whole multiples of it. -/
theorem C139_internal_step {a b : ℚ} {n : Nat} (h : Dyadic a b n) (hn : 0 < n) :
    rnd (rnd (tAt (linspace a b n) 1 - tAt (linspace a b n) 0) / 1) = (b - a) / n := by
  have g : ∀ i, i ≤ n → tAt (linspace a b n) i = a + i * ((b - a) / n) := by
    intro i hi
    rw [tAt, List.getD_eq_getElem?_getD, C139_exact h hn (dvd_refl n), List.getElem?_map, List.getElem?_range (by omega)]
    rfl
  rw [g 1 hn, g 0 (Nat.zero_le n)]
  obtain ⟨za, zh, e, rfl, rfl, hzh, hz⟩ := h
  have hn' : (n : ℚ) ≠ 0 := by exact_mod_cast hn.ne'
  have e1 : (((za + n * zh : ℤ) : ℚ) * 2 ^ e - za * 2 ^ e) / n = zh * 2 ^ e := by push_cast; field_simp; ring
  have hb : |zh| < 2 ^ 53 := by
    rw [abs_of_pos hzh]
    have h1 : (1 : ℤ) ≤ n := by exact_mod_cast hn
    have h2 := mul_le_mul_of_nonneg_right h1 hzh.le
    have h3 := abs_nonneg za
    linarith
  rw [e1, show (za : ℚ) * 2 ^ e + ((1 : Nat) : ℚ) * (zh * 2 ^ e) - (za * 2 ^ e + ((0 : Nat) : ℚ) * (zh * 2 ^ e)) = zh * 2 ^ e by
    push_cast; ring, rnd_dyadic hb, div_one, rnd_dyadic hb]

/-- C139.  The hierarchies of the experiments: 10753 points up to 0.01025390625, thinned by 42, and four or one coarser levels. -/
theorem C139_shipped : Valid (machineLevels 0 (21 / 2048) 10752 42 [256, 64, 16, 4]) ∧
    Valid (machineLevels 0 (21 / 2048) 10752 42 [256]) := by
  have hd : Dyadic 0 (21 / 2048) 10752 := ⟨0, 1, -20, by norm_num, by norm_num, by norm_num, by norm_num⟩
  constructor
  · refine C139_valid hd (by norm_num) (by norm_num) (by norm_num) ?_ ?_
    · intro c hc
      simp at hc
      subst hc; norm_num
    · intro l c d hc hd
      match l, hc, hd with
      | 0, hc, hd => simp at hc hd; subst hc; subst hd; norm_num
      | 1, hc, hd => simp at hc hd; subst hc; subst hd; norm_num
      | 2, hc, hd => simp at hc hd; subst hc; subst hd; norm_num
      | l + 3, hc, hd => simp at hd
  · refine C139_valid hd (by norm_num) (by norm_num) (by norm_num) ?_ ?_
    · intro c hc
      simp at hc
      subst hc; norm_num
    · intro l c d hc hd
      simp at hd

/-- C139.  If the number of intervals is not divisible by `m`, the final time is lost on the finest level and the hierarchy is not
valid. -/
theorem C139_remainder {a b : ℚ} {n m c : Nat} {ns : List Nat} (h : Dyadic a b n) (hn : 0 < n) (hm : 2 ≤ m) (hmn : ¬ m ∣ n) :
    b ∉ grid (machineLevels a b n m (c :: ns)) 0 ∧ ¬ Valid (machineLevels a b n m (c :: ns)) := by
  have hg0 : grid (machineLevels a b n m (c :: ns)) 0 = thinned (linspace a b n) m := rfl
  have hh : 0 < (b - a) / n := div_pos (h.step_pos hn) (by exact_mod_cast hn)
  have hn' : (n : ℚ) ≠ 0 := by exact_mod_cast hn.ne'
  have hb : b ∉ grid (machineLevels a b n m (c :: ns)) 0 := by
    rw [hg0]
    intro hx
    obtain ⟨k, hk, e⟩ := List.mem_iff_getElem.mp hx
    rw [thinned_length hm (linspace_length a b n)] at hk
    have g := level0_get h hn hm (k := k) (by omega)
    rw [List.getElem?_eq_getElem (by rw [thinned_length hm (linspace_length a b n)]; exact hk), e] at g
    have g := Option.some.inj g
    have e1 : a + (n : ℚ) * ((b - a) / n) = a + (place m k : Nat) * ((b - a) / n) := by
      rw [← g]; field_simp; ring
    have e2 := affine_inj hh e1
    have h1 : place m k ≤ place m (2 * (n / m)) := by
      rcases Nat.lt_or_eq_of_le (show k ≤ 2 * (n / m) by omega) with h | h
      · exact (place_lt hm h).le
      · rw [h]
    have h2 : place m (2 * (n / m)) = m * (n / m) := by
      unfold place
      rw [if_pos (by omega), show 2 * (n / m) / 2 = n / m by omega]
    have h3 := Nat.mul_div_le n m
    exact hmn ⟨n / m, by omega⟩
  refine ⟨hb, fun hv => hb (hv.nested 0 (by simp [machineLevels]) b ?_)⟩
  show b ∈ linspace a b c
  simp [linspace]

/-- The nearest double from its digits. -/
theorem rnd_cert {x : ℚ} {k e : ℤ} (h0 : (2 : ℚ) ^ (e + 52) ≤ x) (h1 : x < 2 ^ (e + 53)) (h2 : |x / 2 ^ e - k| < 1 / 2) :
    rnd x = k * 2 ^ e := by
  have hx : 0 < x := lt_of_lt_of_le (two_zpow_pos _) h0
  have hu : ulp x = 2 ^ e := by
    unfold ulp
    rw [abs_of_pos hx, log_eq h0 (by rw [show e + 52 + 1 = e + 53 by ring]; exact h1), show e + 52 - 52 = e by ring]
  unfold rnd
  rw [if_neg hx.ne', hu]
  have h3 := rne_err (x / 2 ^ e)
  have h4 : |(rne (x / 2 ^ e) : ℚ) - k| < 1 := by
    rw [abs_le] at h3
    rw [abs_lt] at h2 ⊢
    constructor <;> linarith [h2.1, h2.2, h3.1, h3.2]
  have h5 : |rne (x / 2 ^ e) - k| < 1 := by exact_mod_cast h4
  have h6 : rne (x / 2 ^ e) = k := by
    rw [abs_lt] at h5
    omega
  rw [h6]

theorem entry_cert {a b d s p v : ℚ} {n i : Nat} (hi : i < n) (h1 : rnd (b - a) = d) (h2 : rnd (d / n) = s) (h3 : rnd (i * s) = p)
    (h4 : rnd (p + a) = v) : entry a b n i = v := by
  unfold entry
  rw [if_pos hi, h1, h2, h3, h4]

/-- A coarse point strictly between two neighbouring points of the complete grid. -/
theorem between {a b : ℚ} {n m c i j : Nat} (hm : 2 ≤ m) (hinc : (linspace a b n).Pairwise (· < ·)) (hi : i < n) (hj : j ≤ c)
    (h1 : entry a b n i < entry a b c j) (h2 : entry a b c j < entry a b n (i + 1)) :
    entry a b c j ∉ grid (machineLevels a b n m [c]) 0 ∧ ¬ Valid (machineLevels a b n m [c]) := by
  have mono : ∀ p q : Nat, p ≤ q → q ≤ n → entry a b n p ≤ entry a b n q := by
    intro p q hpq hq
    rcases Nat.lt_or_eq_of_le hpq with h | h
    · have := List.pairwise_iff_getElem.mp hinc p q (by rw [linspace_length]; omega) (by rw [linspace_length]; omega) h
      have gp := (List.getElem?_eq_some_iff.mp (linspace_get a b (n := n) (i := p) (by omega))).2
      have gq := (List.getElem?_eq_some_iff.mp (linspace_get a b (n := n) (i := q) (by omega))).2
      rw [gp, gq] at this
      exact this.le
    · rw [h]
  have hx : entry a b c j ∉ grid (machineLevels a b n m [c]) 0 := by
    intro hx
    have hx : entry a b c j ∈ thinned (linspace a b n) m := hx
    obtain ⟨k, hk, e⟩ := List.mem_iff_getElem.mp hx
    rw [thinned_length hm (linspace_length a b n)] at hk
    have g := thinned_get hm (linspace_length a b n) (k := k) (by omega)
    have hp := place_le (n := n) hm (k := k) (by omega)
    rw [linspace_get _ _ hp, List.getElem?_eq_getElem (by rw [thinned_length hm (linspace_length a b n)]; exact hk), e] at g
    have e' := Option.some.inj g
    rw [e'] at h1 h2
    rcases Nat.lt_or_ge i (place m k) with h | h
    · exact absurd h2 (not_lt.mpr (mono (i + 1) _ h hp))
    · exact absurd h1 (not_lt.mpr (mono _ i h hi.le))
  refine ⟨hx, fun hv => hx (hv.nested 0 (by simp [machineLevels]) _ ?_)⟩
  show entry a b c j ∈ linspace a b c
  exact List.mem_of_getElem? (linspace_get a b hj)

/-- C139.  The exactness is a matter of the final time: with the same numbers of points, but 0.01 as final time (the double next to
it), point 35 of the second level is missing on the finest level. -/
theorem C139_final_time_counterexample :
    entry 0 (5764607523034235 / 576460752303423488) 256 35 ∉
      grid (machineLevels 0 (5764607523034235 / 576460752303423488) 10752 42 [256]) 0 ∧
    ¬ Valid (machineLevels 0 (5764607523034235 / 576460752303423488) 10752 42 [256]) := by
  have v0 : entry 0 (5764607523034235 / 576460752303423488) 10752 1470 = (3152519739159347 / 2305843009213693952 : ℚ) :=
    entry_cert (d := (5764607523034235 / 576460752303423488 : ℚ)) (s := (2196040961155899 / 2361183241434822606848 : ℚ))
      (p := (3152519739159347 / 2305843009213693952 : ℚ)) (by norm_num)
      ((rnd_cert (k := 5764607523034235) (e := -59) (by norm_num) (by norm_num) (by norm_num)).trans (by norm_num))
      ((rnd_cert (k := 8784163844623596) (e := -73) (by norm_num) (by norm_num) (by norm_num)).trans (by norm_num))
      ((rnd_cert (k := 6305039478318694) (e := -62) (by norm_num) (by norm_num) (by norm_num)).trans (by norm_num))
      ((rnd_cert (k := 6305039478318694) (e := -62) (by norm_num) (by norm_num) (by norm_num)).trans (by norm_num))
  have v1 : entry 0 (5764607523034235 / 576460752303423488) 256 35 = (6305039478318695 / 4611686018427387904 : ℚ) :=
    entry_cert (d := (5764607523034235 / 576460752303423488 : ℚ)) (s := (5764607523034235 / 147573952589676412928 : ℚ))
      (p := (6305039478318695 / 4611686018427387904 : ℚ)) (by norm_num)
      ((rnd_cert (k := 5764607523034235) (e := -59) (by norm_num) (by norm_num) (by norm_num)).trans (by norm_num))
      ((rnd_cert (k := 5764607523034235) (e := -67) (by norm_num) (by norm_num) (by norm_num)).trans (by norm_num))
      ((rnd_cert (k := 6305039478318695) (e := -62) (by norm_num) (by norm_num) (by norm_num)).trans (by norm_num))
      ((rnd_cert (k := 6305039478318695) (e := -62) (by norm_num) (by norm_num) (by norm_num)).trans (by norm_num))
  have v2 : entry 0 (5764607523034235 / 576460752303423488) 10752 1471 = (788666077602619 / 576460752303423488 : ℚ) :=
    entry_cert (d := (5764607523034235 / 576460752303423488 : ℚ)) (s := (2196040961155899 / 2361183241434822606848 : ℚ))
      (p := (788666077602619 / 576460752303423488 : ℚ)) (by norm_num)
      ((rnd_cert (k := 5764607523034235) (e := -59) (by norm_num) (by norm_num) (by norm_num)).trans (by norm_num))
      ((rnd_cert (k := 8784163844623596) (e := -73) (by norm_num) (by norm_num) (by norm_num)).trans (by norm_num))
      ((rnd_cert (k := 6309328620820952) (e := -62) (by norm_num) (by norm_num) (by norm_num)).trans (by norm_num))
      ((rnd_cert (k := 6309328620820952) (e := -62) (by norm_num) (by norm_num) (by norm_num)).trans (by norm_num))
  have h1 : entry 0 (5764607523034235 / 576460752303423488) 10752 1470 <
      entry 0 (5764607523034235 / 576460752303423488) 256 35 := by rw [v0, v1]; norm_num
  have h2 : entry 0 (5764607523034235 / 576460752303423488) 256 35 <
      entry 0 (5764607523034235 / 576460752303423488) 10752 1471 := by rw [v1, v2]; norm_num
  exact between (by norm_num) (C130_increasing (M := 5764607523034235 / 576460752303423488) (by norm_num) (by norm_num)
    (by norm_num) (by norm_num)) (by norm_num) (by norm_num) h1 h2

/-- C139.  Leaving out points of the finest grid does not change the values at the remaining ones, if a step over several intervals
gives the same value as the steps over its parts.  This is an assumption on the external solver, which is not modelled; it is suggested
by the internal step being fixed when the application is constructed, before the points are left out
(src/pymgrit/induction_machine/induction_machine.py:62). -/
theorem C139_values {V : Type} {step : V → ℚ → ℚ → V} (v : V) {t : List ℚ} {n m : Nat} (hm : 2 ≤ m) (ht : t.length = n + 1)
    (hc : ∀ (w : V) (i j k : Nat) (x y z : ℚ), i < j → j < k → t[i]? = some x → t[j]? = some y → t[k]? = some z →
      step (step w x y) y z = step w x z) :
    (∀ c, c ≤ n / m → (march step v (thinned t m))[2 * c]? = (march step v t)[m * c]?) ∧
    (∀ c, c < n / m → (march step v (thinned t m))[2 * c + 1]? = (march step v t)[m * (c + 1) - 1]?) := by
  constructor
  · intro c hc'
    rw [march_thinned v hm ht hc _ (by omega)]
    simp [place]
  · intro c hc'
    rw [march_thinned v hm ht hc _ (by omega)]
    unfold place
    rw [if_neg (by omega), show (2 * c + 1) / 2 = c by omega]

/-! ### The hypotheses can be met -/

/-- Three levels with the factors 6 (thinned), 5 and 3 – no powers of two. -/
example : Valid (machineLevels 0 (90 / 1024) 90 6 [15, 3, 1]) :=
  C139_valid ⟨0, 1, -10, by norm_num, by norm_num, by norm_num, by norm_num⟩ (by norm_num) (by norm_num) (by norm_num)
    (by intro c hc; simp at hc; subst hc; norm_num)
    (by
      intro l c d hc hd
      match l, hc, hd with
      | 0, hc, hd => simp at hc hd; subst hc; subst hd; norm_num
      | 1, hc, hd => simp at hc hd; subst hc; subst hd; norm_num
      | l + 2, hc, hd => simp at hd)

/-- The last time is lost if 7 intervals are thinned by 3. -/
example : ¬ Valid (machineLevels 0 7 7 3 [1]) :=
  (C139_remainder ⟨0, 1, 0, by norm_num, by norm_num, by norm_num, by norm_num⟩ (by norm_num) (by norm_num) (by norm_num)).2

/-- An internal step of length one: a step adds the number of internal steps. -/
example : (march (fun (v : ℚ) x y => v + (y - x)) 5 (thinned [0, 1, 2, 3, 4, 5, 6] 3))[3]? =
    (march (fun (v : ℚ) x y => v + (y - x)) 5 [0, 1, 2, 3, 4, 5, 6])[5]? :=
  (C139_values (n := 6) 5 (by norm_num) rfl (by intros; ring)).2 1 (by norm_num)

end Pymgrit.MachineGrid
