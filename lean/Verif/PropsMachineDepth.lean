import Verif.PropsMachineGrid
import Verif.PropsDepth

/-!
# C139: the hierarchies of the induction machine experiments meet the conditions of C138

Hence the bounds of C138 on the chains of dependent calls of `step()` hold for them, with one F-point per interval on the finest level.
-/

namespace Pymgrit.MachineGrid

open Double

/-- Length of the runs of F-points: one on the finest level, the coarsening factor minus one below. -/
def runLength (ns : List Nat) : Nat → Nat
  | 0 => 1
  | l + 1 => ns.getD l 0 / ns.getD (l + 1) 0 - 1

/-- Points of a coarse level that are on the next one. -/
theorem coarse_mem {a b : ℚ} {n c q i : Nat} (h : Dyadic a b n) (hn : 0 < n) (hc : c * q ∣ n) (hi : i ≤ c * q) :
    tAt (linspace a b (c * q)) i ∈ linspace a b c ↔ q ∣ i := by
  have hc0 : 0 < c * q := Nat.pos_of_dvd_of_pos hc hn
  have hcp : 0 < c := Nat.pos_of_mul_pos_right hc0
  have hqp : 0 < q := Nat.pos_of_mul_pos_left hc0
  have hcn : c ∣ n := (Dvd.intro q rfl).trans hc
  have hh : 0 < (b - a) / n := div_pos (h.step_pos hn) (by exact_mod_cast hn)
  have e1 : n / c = n / (c * q) * q := by
    obtain ⟨r, hr⟩ := hc
    rw [hr, Nat.mul_div_cancel_left r hc0, show c * q * r = c * (r * q) by ring, Nat.mul_div_cancel_left _ hcp]
  have hr0 : 0 < n / (c * q) := Nat.div_pos (Nat.le_of_dvd hn hc) hc0
  have hat : tAt (linspace a b (c * q)) i = a + ((n / (c * q) * i : Nat) : ℚ) * ((b - a) / n) := by
    rw [tAt, List.getD_eq_getElem?_getD, coarse_get h hn hc hi]
    rfl
  rw [hat]
  constructor
  · intro hx
    obtain ⟨j, hj, e⟩ := List.mem_iff_getElem.mp hx
    rw [linspace_length] at hj
    have g := coarse_get h hn hcn (i := j) (by omega)
    rw [List.getElem?_eq_getElem (by rw [linspace_length]; exact hj), e] at g
    have e' := affine_inj hh (Option.some.inj g)
    rw [e1, Nat.mul_assoc] at e'
    exact ⟨j, Nat.eq_of_mul_eq_mul_left hr0 e'⟩
  · rintro ⟨j, rfl⟩
    have hj : j ≤ c := by
      rw [Nat.mul_comm c q] at hi
      exact Nat.le_of_mul_le_mul_left hi hqp
    have g := coarse_get h hn hcn hj
    rw [e1, Nat.mul_assoc] at g
    exact List.mem_of_getElem? g

/-- C139.  The conditions of C138: after each C-point one F-point on the finest level and at most factor minus one on the others;
no neighbouring C-points if every level coarsens. -/
theorem C139_runs {a b : ℚ} {n m : Nat} {ns : List Nat} (h : Dyadic a b n) (hn : 0 < n) (hm : 2 ≤ m) (hmn : m ∣ n)
    (hfirst : ns[0]? = some (n / m)) (hdiv : ∀ (l c d : Nat), ns[l]? = some c → ns[l + 1]? = some d → d ∣ c ∧ d < c) :
    Depth.Runs (machineLevels a b n m ns) (runLength ns) ∧ Depth.Apart (machineLevels a b n m ns) := by
  have hq : n / m ∣ n := Nat.div_dvd_of_dvd hmn
  have hall : ∀ (l c : Nat), ns[l]? = some c → c ∣ n := by
    intro l
    induction l with
    | zero =>
      intro c hc
      rw [hfirst] at hc
      exact (Option.some.inj hc) ▸ hq
    | succ l ih =>
      intro c hc
      have hl : l < ns.length := by have := (List.getElem?_eq_some_iff.mp hc).1; omega
      have hl' : ns[l]? = some ns[l] := List.getElem?_eq_getElem hl
      exact (hdiv l _ c hl' hc).1.trans (ih _ hl')
  have hgs : ∀ (l c : Nat), ns[l]? = some c → grid (machineLevels a b n m ns) (l + 1) = linspace a b c := by
    intro l c hl
    simp [grid, machineLevels, hl, List.getD_eq_getElem?_getD]
  have hlen : (machineLevels a b n m ns).length = ns.length + 1 := by simp [machineLevels]
  obtain ⟨ns', rfl⟩ : ∃ ns', ns = n / m :: ns' := by
    cases ns with
    | nil => simp at hfirst
    | cons x xs => simp at hfirst; exact ⟨xs, by rw [hfirst]⟩
  -- two consecutive coarse levels
  have hpair : ∀ l, l + 2 < (machineLevels a b n m (n / m :: ns')).length →
      ∃ c q, 2 ≤ q ∧ 0 < c ∧ c * q ∣ n ∧ grid (machineLevels a b n m (n / m :: ns')) (l + 1) = linspace a b (c * q) ∧
        grid (machineLevels a b n m (n / m :: ns')) (l + 2) = linspace a b c ∧ runLength (n / m :: ns') (l + 1) = q - 1 := by
    intro l hl
    have h1 : (n / m :: ns')[l]? = some (n / m :: ns')[l] := List.getElem?_eq_getElem (by omega)
    have h2 : (n / m :: ns')[l + 1]? = some (n / m :: ns')[l + 1] := List.getElem?_eq_getElem (by omega)
    generalize (n / m :: ns')[l] = p at h1
    generalize (n / m :: ns')[l + 1] = c at h2
    obtain ⟨⟨q, hpq⟩, hlt⟩ := hdiv l p c h1 h2
    have hc0 : 0 < c := Nat.pos_of_dvd_of_pos (hall _ c h2) hn
    subst hpq
    have hq2 : 2 ≤ q := by
      by_contra hcon
      have : c * q ≤ c * 1 := Nat.mul_le_mul_left c (by omega)
      omega
    refine ⟨c, q, hq2, hc0, hall _ _ h1, hgs l _ h1, hgs (l + 1) c h2, ?_⟩
    simp only [runLength, List.getD_eq_getElem?_getD, h1, h2, Option.getD_some]
    rw [Nat.mul_div_cancel_left q hc0]
  constructor
  · intro l hl i hi
    cases l with
    | zero =>
      rcases Nat.mod_two_eq_zero_or_one i with he | he
      · exact ⟨i, le_refl i, by omega, (C139_alternate h hn hm hmn hi).1.mpr he⟩
      · exact ⟨i - 1, by omega, by simp only [runLength]; omega,
          (C139_alternate h hn hm hmn (k := i - 1) (by omega)).1.mpr (by omega)⟩
    | succ l =>
      obtain ⟨c, q, hq2, hc0, hcq, g1, g2, hr⟩ := hpair l hl
      unfold npts at hi
      rw [g1, linspace_length] at hi
      rw [g1, g2, hr]
      have h1 := Nat.div_add_mod i q
      have h2 := Nat.mod_lt i (show 0 < q by omega)
      exact ⟨q * (i / q), by omega, by omega, (coarse_mem h hn hcq (by omega)).mpr ⟨i / q, rfl⟩⟩
  · intro l hl i hi hx
    cases l with
    | zero =>
      have h1 := (C139_alternate h hn hm hmn (k := i) (by omega)).1.mp hx
      intro hy
      have h2 := (C139_alternate h hn hm hmn (k := i + 1) hi).1.mp hy
      omega
    | succ l =>
      obtain ⟨c, q, hq2, hc0, hcq, g1, g2, hr⟩ := hpair l hl
      unfold npts at hi
      rw [g1, linspace_length] at hi
      rw [g1, g2] at hx ⊢
      rw [coarse_mem h hn hcq (by omega)] at hx ⊢
      intro hy
      have := (Nat.dvd_add_right hx).mp hy
      have := Nat.le_of_dvd Nat.one_pos this
      omega

/-- C139.  For the shipped experiments with five levels: one F-point per C-point on the finest level, three on the others. -/
theorem C139_shipped_runs :
    Depth.Runs (machineLevels 0 (21 / 2048) 10752 42 [256, 64, 16, 4]) (fun l => if l = 0 then 1 else 3) ∧
    Depth.Apart (machineLevels 0 (21 / 2048) 10752 42 [256, 64, 16, 4]) := by
  have hd : Dyadic 0 (21 / 2048) 10752 := ⟨0, 1, -20, by norm_num, by norm_num, by norm_num, by norm_num⟩
  have key := C139_runs (m := 42) (ns := [256, 64, 16, 4]) hd (by norm_num) (by norm_num) (by norm_num) (by norm_num) (by
    intro l c d hc hd
    match l, hc, hd with
    | 0, hc, hd => simp at hc hd; subst hc; subst hd; norm_num
    | 1, hc, hd => simp at hc hd; subst hc; subst hd; norm_num
    | 2, hc, hd => simp at hc hd; subst hc; subst hd; norm_num
    | l + 3, hc, hd => simp at hd)
  refine ⟨fun l hl i hi => ?_, key.2⟩
  have hl5 : (machineLevels 0 (21 / 2048) 10752 42 [256, 64, 16, 4]).length = 5 := by simp [machineLevels]
  obtain ⟨c, h1, h2, h3⟩ := key.1 l hl i hi
  refine ⟨c, h1, ?_, h3⟩
  have hr : runLength [256, 64, 16, 4] l = if l = 0 then 1 else 3 := by
    rw [hl5] at hl
    match l, hl with
    | 0, _ => rfl
    | 1, _ => rfl
    | 2, _ => rfl
    | 3, _ => rfl
    | l + 4, hl => omega
  rw [hr] at h2
  exact h2

end Pymgrit.MachineGrid
