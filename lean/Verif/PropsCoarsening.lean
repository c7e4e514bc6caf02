import Verif.Coarsening
import Mathlib.Tactic.IntervalCases

/-!
# Property C128: what is reported about the coarsening
-/

namespace Pymgrit

variable {T : Type} [LinearOrder T] [Inhabited T]

theorem diffs_length (cs : List Nat) : (diffs cs).length = cs.length - 1 := by simp [diffs]

theorem diffs_getElem {cs : List Nat} {k : Nat} (h : k + 1 < cs.length) :
    (diffs cs)[k]? = some ((cs[k + 1] : Int) - cs[k]) := by
  unfold diffs
  rw [List.getElem?_zipWith, List.getElem?_tail, List.getElem?_eq_getElem h,
    List.getElem?_eq_getElem (Nat.lt_of_succ_lt h)]

theorem factor_ok {ts : List (List T)} {l : Nat} {m : Int} (h : factor ts l = .ok m) :
    1 < (allC ts l).length ∧ (diffs (allC ts l))[0]? = some m ∧ (diffs (allC ts l)).headD 0 = m := by
  unfold factor at h
  have hl := diffs_length (allC ts l)
  revert h
  generalize diffs (allC ts l) = ds at *
  intro h
  cases ds with
  | nil => cases h
  | cons d ds =>
    injection h with h
    subst h
    simp only [List.length_cons] at hl
    exact ⟨by omega, rfl, rfl⟩

theorem factor_nonneg {ts : List (List T)} {l : Nat} {m : Int} (h : factor ts l = .ok m) : 0 ≤ m := by
  obtain ⟨h1, h2, -⟩ := factor_ok h
  have hs : (allC ts l).Pairwise (· < ·) := by
    unfold allC
    split
    · exact List.pairwise_lt_range.filter _
    · exact List.pairwise_lt_range
  rw [diffs_getElem h1] at h2
  have := List.pairwise_iff_getElem.1 hs 0 1 (by omega) h1 (by omega)
  rw [← Option.some.inj h2]
  simp only [Nat.zero_add]
  omega

/-- C128.  The reported coarsening factor is the distance of the first two C-points; with fewer C-points the constructor
raises an exception. -/
theorem C128_factor (ts : List (List T)) (l : Nat) :
    (∀ m : Int, factor ts l = .ok m ↔
      ∃ c d : Nat, (allC ts l)[0]? = some c ∧ (allC ts l)[1]? = some d ∧ m = d - c) ∧
    (factor ts l = .error "IndexError" ↔ (allC ts l).length ≤ 1) := by
  unfold factor
  generalize allC ts l = cs
  match cs with
  | [] => simp [diffs]
  | [a] => simp [diffs]
  | a :: b :: cs => simp [diffs, eq_comm]

/-- Equally spaced numbers. -/
def Uniform (cs : List Nat) (m : Int) : Prop := ∀ k i c : Nat, cs[0]? = some c → cs[k]? = some i → (i : Int) = c + k * m

theorem uniform_iff {cs : List Nat} {m : Int} : Uniform cs m ↔ ∀ d ∈ diffs cs, d = m := by
  constructor
  · intro h d hd
    obtain ⟨k, hk, e⟩ := List.getElem_of_mem hd
    have hl := diffs_length cs
    have h1 : k + 1 < cs.length := by omega
    have e1 := diffs_getElem h1
    rw [List.getElem?_eq_getElem hk, e] at e1
    have h0 : cs[0]? = some cs[0] := List.getElem?_eq_getElem _
    have a1 := h (k + 1) _ _ h0 (List.getElem?_eq_getElem h1)
    have a2 := h k _ _ h0 (List.getElem?_eq_getElem (Nat.lt_of_succ_lt h1))
    rw [Option.some.inj e1, a1, a2]
    push_cast
    ring
  · intro h k
    induction k with
    | zero =>
      intro i c hc hi
      rw [hc] at hi
      cases hi
      simp
    | succ k ih =>
      intro i c hc hi
      obtain ⟨h1, rfl⟩ := List.getElem?_eq_some_iff.1 hi
      have a1 := ih _ c hc (List.getElem?_eq_getElem (Nat.lt_of_succ_lt h1))
      have a2 := h _ (List.mem_of_getElem? (diffs_getElem h1))
      push_cast
      linarith

/-- C128.  Without a warning all gaps between C-points agree with the reported factor up to one part in 100000. -/
theorem C128_silent {ts : List (List T)} {l : Nat} {m : Int} (h : factor ts l = .ok m) :
    warns ts l 0 = false ↔ ∀ d ∈ diffs (allC ts l), |(d : ℚ) - m| ≤ 1 / 10 ^ 8 + 1 / 10 ^ 5 * |(m : ℚ)| := by
  obtain ⟨-, -, h3⟩ := factor_ok h
  unfold warns
  rw [h3]
  simp [Petsc.isclose]

/-- C128.  If the reported factor is below 100000, the warning is issued exactly if the C-points are not equally spaced,
and only by process 0.  Missing: larger factors (`C128_warning_counterexample`). -/
theorem C128_warning_partial {ts : List (List T)} {l : Nat} {m : Int} (h : factor ts l = .ok m) (hm : m < 100000)
    (r : Nat) :
    warns ts l r = true ↔ r = 0 ∧ ¬ ∃ step, Uniform (allC ts l) step := by
  obtain ⟨h1, h2, h3⟩ := factor_ok h
  have hm0 := factor_nonneg h
  have key : warns ts l 0 = false ↔ ∃ step, Uniform (allC ts l) step := by
    rw [C128_silent h]
    constructor
    · intro hd
      refine ⟨m, uniform_iff.2 fun d hmem => ?_⟩
      have := hd d hmem
      have hmq : |(m : ℚ)| ≤ 99999 := by
        rw [abs_of_nonneg (by exact_mod_cast hm0)]
        exact_mod_cast (by omega : m ≤ 99999)
      have : |(d : ℚ) - m| < 1 := by linarith
      have h4 : |d - m| < 1 := by exact_mod_cast this
      have := Int.abs_lt_one_iff.1 h4
      omega
    · rintro ⟨step, hs⟩ d hmem
      have hs := uniform_iff.1 hs
      rw [hs d hmem, ← hs m (List.mem_of_getElem? h2)]
      simp only [sub_self, abs_zero]
      positivity
  by_cases hr : r = 0
  · subst hr
    rw [← Bool.not_eq_false, not_congr key]
    simp
  · have : warns ts l r = false := by simp [warns, hr]
    simp [this, hr]

theorem uniform_times {ts : List (List T)} (hv : Valid ts) {l m : Nat} (hl : l + 1 < ts.length)
    (h : Uniform (allC ts l) m) {k : Nat} (hk : k < npts ts (l + 1)) :
    tAt (grid ts (l + 1)) k = tAt (grid ts l) (k * m) := by
  have hlen := allC_length hv hl
  have hk' : k < (allC ts l).length := by omega
  have e := h k _ 0 (allC_zero hv (by omega)) (List.getElem?_eq_getElem hk')
  have e' : (allC ts l)[k] = k * m := by
    have : (((allC ts l)[k] : Nat) : Int) = ((k * m : Nat) : Int) := by rw [e]; push_cast; ring
    exact_mod_cast this
  rw [← tAt_cpt hv hl hk, ← e']
  congr 1
  simp [List.getD_eq_getElem?_getD, hk']

/-- C128.  Without a warning and with a reported factor `m` below 100000 the coarse grid consists of every `m`-th point of
the fine one. -/
theorem C128_times {ts : List (List T)} (hv : Valid ts) {l m : Nat} (hl : l + 1 < ts.length)
    (h : factor ts l = .ok m) (hm : m < 100000) (hw : warns ts l 0 = false) :
    ∀ k, k < npts ts (l + 1) → tAt (grid ts (l + 1)) k = tAt (grid ts l) (k * m) := by
  intro k hk
  refine uniform_times hv hl (uniform_iff.2 fun d hd => ?_) hk
  have h1 : ∃ step, Uniform (allC ts l) step := by
    by_contra hn
    have := (C128_warning_partial h (by exact_mod_cast hm) 0).2 ⟨rfl, hn⟩
    rw [hw] at this
    cases this
  obtain ⟨step, hs⟩ := h1
  have hs := uniform_iff.1 hs
  rw [hs d hd, ← hs m (List.mem_of_getElem? (factor_ok h).2.1)]

/-- The multiples of `c` below `n`. -/
theorem filter_dvd {c : Nat} (hc : 1 ≤ c) (n : Nat) {cs : List Nat} (hs : cs.Pairwise (· < ·))
    (hm : ∀ i, i ∈ cs ↔ i < n ∧ c ∣ i) : cs = (List.range ((n + c - 1) / c)).map (· * c) := by
  refine List.Perm.eq_of_pairwise (le := (· < ·)) (fun x y _ _ hxy hyx => absurd hxy (not_lt_of_gt hyx)) hs ?_ ?_
  · rw [List.pairwise_map]
    exact List.pairwise_lt_range.imp fun h => Nat.mul_lt_mul_of_pos_right h hc
  · rw [List.perm_ext_iff_of_nodup (hs.imp fun h => ne_of_lt h)]
    · intro i
      rw [hm]
      simp only [List.mem_map, List.mem_range]
      constructor
      · rintro ⟨h1, k, rfl⟩
        refine ⟨k, ?_, Nat.mul_comm _ _⟩
        rw [Nat.lt_iff_add_one_le, Nat.le_div_iff_mul_le hc]
        have : (k + 1) * c = c * k + c := by ring
        omega
      · rintro ⟨k, hk, rfl⟩
        rw [Nat.lt_iff_add_one_le, Nat.le_div_iff_mul_le hc] at hk
        have : (k + 1) * c = k * c + c := by ring
        exact ⟨by omega, Dvd.intro_left k rfl⟩
    · refine List.Nodup.map (fun a b h => Nat.eq_of_mul_eq_mul_right hc h) List.nodup_range

/-- C128.  For problems from `simple_setup_problem` the coarsening factor `c` is reported on every level, and never with a
warning, whatever the size of `c`. -/
theorem C128_simple_setup (p : App T) (level c : Nat) (hl : 1 ≤ level) (hc : 1 ≤ c) (ht : p.t ≠ [])
    (hs : p.t.Pairwise (· < ·)) (ps : List (App T)) (w : Bool) (h : simpleSetup p level c = .ok (ps, w)) (l : Nat)
    (hlt : l + 1 < level) :
    (∀ r, warns (ps.map App.t) l r = false) ∧
    (c ^ (l + 1) < p.t.length → factor (ps.map App.t) l = .ok (c : Int)) := by
  have hv := C26_valid p level c hl hc ht hs ps w h
  obtain ⟨hlen, hg⟩ := simple_grid p level c hl hc ht ps w h
  have hn : (ps.map App.t)[l]?.elim 0 List.length = npts (ps.map App.t) l := by
    rw [npts, grid_getElem (by simp; omega), List.getElem?_eq_getElem (by simp; omega)]
    rfl
  have hC := filter_dvd hc (npts (ps.map App.t) l) (allC_sorted hv l) fun i => by
    rw [C26_cpoints p level c hl hc ht hs ps w h l hlt i, hn]
  have hu : Uniform (allC (ps.map App.t) l) c := by
    intro k i c0 h0 hi
    rw [allC_zero hv (by simp; omega)] at h0
    cases h0
    rw [hC] at hi
    simp only [List.getElem?_map, Option.map_eq_some_iff] at hi
    obtain ⟨a, ha, rfl⟩ := hi
    have := (List.getElem?_eq_some_iff.1 ha).2
    simp only [List.getElem_range] at this
    subst this
    push_cast
    ring
  have hd := uniform_iff.1 hu
  constructor
  · intro r
    unfold warns
    rw [Bool.and_eq_false_iff]
    left
    rw [Bool.not_eq_false', List.all_eq_true]
    intro d hmem
    rcases hds : diffs (allC (ps.map App.t) l) with _ | ⟨e, es⟩
    · rw [hds] at hmem; cases hmem
    · have he := hd e (by rw [hds]; exact List.mem_cons_self)
      rw [hd d hmem]
      simp only [List.headD_cons, he, decide_eq_true_eq, Petsc.isclose, sub_self, abs_zero]
      positivity
  · intro hlt2
    have h1 : 1 < (allC (ps.map App.t) l).length := by
      have hpow : 1 ≤ c ^ l := Nat.one_le_pow _ _ hc
      have hmem : c ∈ allC (ps.map App.t) l := by
        rw [C26_cpoints p level c hl hc ht hs ps w h l hlt c, hn]
        refine ⟨?_, dvd_rfl⟩
        rw [npts, hg l (by omega), stride_length _ hpow, Nat.lt_iff_add_one_le, Nat.le_div_iff_mul_le hpow]
        have : (c + 1) * c ^ l = c ^ (l + 1) + c ^ l := by ring
        omega
      have h0 : 0 ∈ allC (ps.map App.t) l := List.mem_of_getElem? (allC_zero hv (by simp; omega))
      rcases hcs : allC (ps.map App.t) l with _ | ⟨a, _ | ⟨b, cs⟩⟩
      · rw [hcs] at h0; cases h0
      · rw [hcs] at h0 hmem
        simp only [List.mem_singleton] at h0 hmem
        omega
      · simp
    unfold factor
    have hl1 := diffs_length (allC (ps.map App.t) l)
    rcases hds : diffs (allC (ps.map App.t) l) with _ | ⟨e, es⟩
    · rw [hds] at hl1
      simp only [List.length_nil] at hl1
      omega
    · rw [hd e (by rw [hds]; exact List.mem_cons_self)]

/-- A fine grid with more than 200001 points, a coarse grid with three of them. -/
def bigGrid (n : Nat) : List (List Nat) := [List.range n, [0, 100000, 200001]]

theorem bigGrid_valid {n : Nat} (hn : 200001 < n) : Valid (bigGrid n) := by
  have hg : ∀ l, grid (bigGrid n) (l + 2) = [] := fun l => rfl
  have h0 : grid (bigGrid n) 0 = List.range n := rfl
  have h1 : grid (bigGrid n) 1 = [0, 100000, 200001] := rfl
  have hlen : (bigGrid n).length = 2 := rfl
  refine ⟨by omega, List.ne_nil_of_length_pos (by rw [h0, List.length_range]; omega), ?_, ?_, ?_⟩
  · intro l
    match l with
    | 0 => rw [h0]; exact List.pairwise_lt_range
    | 1 => rw [h1]; simp
    | l + 2 => rw [hg]; exact List.Pairwise.nil
  · intro l hl x hx
    obtain rfl : l = 0 := by omega
    rw [h1] at hx
    rw [h0, List.mem_range]
    simp only [List.mem_cons, List.not_mem_nil, or_false] at hx
    omega
  · intro l hl
    match l with
    | 0 => rfl
    | 1 => rw [h0, h1, List.head?_eq_getElem?, List.head?_eq_getElem?, List.getElem?_range (by omega)]; rfl
    | l + 2 => omega

theorem bigGrid_allC {n : Nat} (hn : 200001 < n) : allC (bigGrid n) 0 = [0, 100000, 200001] := by
  have hs := allC_sorted (bigGrid_valid hn) 0
  refine List.Perm.eq_of_pairwise (le := (· < ·)) (fun x y _ _ hxy hyx => absurd hxy (not_lt_of_gt hyx))
    hs (by simp) ?_
  rw [List.perm_ext_iff_of_nodup (hs.imp fun h => ne_of_lt h) (by simp)]
  intro i
  have hlen : (bigGrid n).length = 2 := rfl
  rw [mem_allC_iff (by omega)]
  have h0 : grid (bigGrid n) 0 = List.range n := rfl
  have h1 : grid (bigGrid n) (0 + 1) = [0, 100000, 200001] := rfl
  have hn' : npts (bigGrid n) 0 = n := by rw [npts, h0, List.length_range]
  rw [hn', h0, h1, tAt, List.getD_eq_getElem?_getD]
  constructor
  · rintro ⟨h1, h2⟩
    rw [List.getElem?_range h1] at h2
    exact h2
  · intro h
    have h1 : i < n := by
      simp only [List.mem_cons, List.not_mem_nil, or_false] at h
      omega
    refine ⟨h1, ?_⟩
    rw [List.getElem?_range h1]
    exact h

/-- C128.  Large factors: C-points at 0, 100000 and 200001 are not equally spaced, but there is no warning. -/
theorem C128_warning_counterexample {n : Nat} (hn : 200001 < n) :
    Valid (bigGrid n) ∧ factor (bigGrid n) 0 = .ok 100000 ∧ (∀ r, warns (bigGrid n) 0 r = false) ∧
    ¬ ∃ step, Uniform (allC (bigGrid n) 0) step := by
  have hd : diffs (allC (bigGrid n) 0) = [100000, 100001] := by rw [bigGrid_allC hn]; simp [diffs]
  refine ⟨bigGrid_valid hn, by unfold factor; rw [hd], fun r => ?_, ?_⟩
  · unfold warns
    rw [hd, Bool.and_eq_false_iff]
    left
    simp only [List.headD_cons, List.all_cons, List.all_nil, Bool.and_true, Bool.not_eq_false', Bool.and_eq_true,
      decide_eq_true_eq, Petsc.isclose]
    norm_num [abs_of_pos]
  · rintro ⟨step, h⟩
    have h := uniform_iff.1 h
    rw [hd] at h
    have h1 := h 100000 (by simp)
    have h2 := h 100001 (by simp)
    omega

/-- C128.  The reported `max dt` is the largest step; without a step there is an exception. -/
theorem C128_max_dt {K : Type} [Field K] [LinearOrder K] (t : List K) :
    (maxDt t = none ↔ t.length ≤ 1) ∧
    ∀ d, maxDt t = some d ↔ (∃ i, ∃ h : i + 1 < t.length, t[i + 1] - t[i] = d) ∧
      ∀ i, ∀ h : i + 1 < t.length, t[i + 1] - t[i] ≤ d := by
  have hmem : ∀ d, d ∈ List.zipWith (fun a b => b - a) t t.tail ↔ ∃ i, ∃ h : i + 1 < t.length, t[i + 1] - t[i] = d := by
    intro d
    rw [List.mem_iff_getElem]
    constructor
    · rintro ⟨i, hi, e⟩
      simp only [List.length_zipWith, List.length_tail] at hi
      refine ⟨i, by omega, ?_⟩
      rw [← e]
      simp
    · rintro ⟨i, hi, e⟩
      refine ⟨i, by simp only [List.length_zipWith, List.length_tail]; omega, ?_⟩
      rw [← e]
      simp
  unfold maxDt
  constructor
  · rw [List.max?_eq_none_iff, List.zipWith_eq_nil_iff]
    constructor
    · rintro (h | h)
      · simp [h]
      · have := congrArg List.length h
        simp only [List.length_tail, List.length_nil] at this
        omega
    · intro h
      right
      rw [← List.length_eq_zero_iff, List.length_tail]
      omega
  · intro d
    rw [List.max?_eq_some_iff, hmem]
    refine and_congr_right fun _ => ?_
    constructor
    · intro h i hi
      exact h _ ((hmem _).2 ⟨i, hi, rfl⟩)
    · intro h b hb
      obtain ⟨i, hi, e⟩ := (hmem b).1 hb
      rw [← e]
      exact h i hi

/-! ### The hypotheses are met -/

/-- Eight points, every second of them, and of these the first, second and fourth. -/
def exCoarsening : List (List Nat) := [List.range 8, [0, 2, 4, 6], [0, 2, 6]]

theorem exCoarsening_valid : Valid exCoarsening := by
  refine ⟨by decide, by decide, ?_, ?_, ?_⟩
  · intro l
    match l with
    | 0 => decide
    | 1 => decide
    | 2 => decide
    | l + 3 => exact List.Pairwise.nil
  · intro l hl
    have : l < 2 := by simp only [exCoarsening, List.length_cons, List.length_nil] at hl; omega
    interval_cases l <;> decide
  · intro l hl
    have : l < 3 := hl
    interval_cases l <;> decide

example : factor exCoarsening 0 = .ok ((2 : Nat) : Int) ∧ factor exCoarsening 1 = .ok ((1 : Nat) : Int) := by
  constructor <;> decide

/-- No warning on the first level, and the claim about the times; a warning on the second. -/
example : (∀ k, k < 4 → tAt [0, 2, 4, 6] k = tAt (List.range 8) (k * 2)) ∧ warns exCoarsening 1 0 = true := by
  have hf : factor exCoarsening 0 = .ok ((2 : Nat) : Int) := by decide
  have h1 : warns exCoarsening 0 0 = false := by
    have : ¬ warns exCoarsening 0 0 = true := by
      rw [C128_warning_partial hf (by decide) 0]
      rintro ⟨-, h⟩
      exact h ⟨2, uniform_iff.2 (by decide)⟩
    simpa using this
  refine ⟨C128_times exCoarsening_valid (by decide) hf (by decide) h1, ?_⟩
  rw [C128_warning_partial (m := 1) (by decide) (by decide) 0]
  refine ⟨rfl, ?_⟩
  rintro ⟨step, h⟩
  have h := uniform_iff.1 h
  have h1 := h 1 (by decide)
  have h2 := h 2 (by decide)
  omega

example : maxDt [(0 : ℚ), 1, 3] = some 2 := by
  rw [(C128_max_dt _).2]
  refine ⟨⟨1, by simp, by norm_num⟩, fun i hi => ?_⟩
  have : i < 2 := by simp only [List.length_cons, List.length_nil] at hi; omega
  interval_cases i <;> norm_num

end Pymgrit
