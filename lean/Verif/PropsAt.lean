import Verif.AtMgrit
import Verif.PropsDriver

/-!
# Properties C34-C36: AT-MGRIT on one process
-/

set_option linter.unusedSectionVars false

namespace Pymgrit
open Sys

variable {V K N : Type} {S : Sys V K}

section spec

theorem foldl_range'_steps (Ψ : Nat → V → V) (a m : Nat) (x : V) :
    (List.range' (a + 1) m).foldl (fun x i => Ψ i x) x = stepsFrom Ψ a m x := by
  induction m with
  | zero => rfl
  | succ m ih =>
    rw [List.range'_concat, List.foldl_append, ih]
    simp only [List.foldl_cons, List.foldl_nil, stepsFrom, Nat.one_mul]
    congr 1
    omega

end spec

theorem foldl_update_range (f : Nat → V) (n : Nat) (u : Nat → V) (i : Nat) :
    (List.range n).foldl (fun u p => Function.update u p (f p)) u i = if i < n then f i else u i := by
  induction n with
  | zero => simp
  | succ n ih =>
    rw [List.range_succ, List.foldl_append]
    simp only [List.foldl_cons, List.foldl_nil]
    by_cases h : i = n
    · subst h; simp
    · rw [Function.update_of_ne h, ih]
      by_cases h2 : i < n
      · rw [if_pos h2, if_pos (by omega)]
      · rw [if_neg h2, if_neg (by omega)]

section atm
variable [Add V]

theorem atForward_u_ne {k l l' : Nat} (s : GState V) (h : l' ≠ l) :
    (S.atForward k l s).u l' = s.u l' := by
  unfold atForward; split
  · rfl
  · exact GState.setU_u_ne _ _ h

theorem atForward_v (k l) (s : GState V) : (S.atForward k l s).v = s.v := by
  unfold atForward; split <;> rfl
theorem atForward_g (k l) (s : GState V) : (S.atForward k l s).g = s.g := by
  unfold atForward; split <;> rfl

/-- C35.  For `k ≥ 1` the new value at coarsest point `p` is obtained by stepping from the *old* value
`k - 1` points before `p` (or from point 0) up to `p`; nothing else changes. -/
theorem C35_window_value (hL : S.L ≠ 1) {k l : Nat} (hk : 1 ≤ k) (s : GState V) :
    (∀ p, p < S.n l → (S.atForward k l s).u l p =
      stepsFrom (fun i x => s.g l i + S.Φ l i x) (p + 1 - k) (min p (k - 1)) (s.u l (p + 1 - k))) ∧
    (∀ p, S.n l ≤ p → (S.atForward k l s).u l p = s.u l p) ∧
    (∀ l', l' ≠ l → (S.atForward k l s).u l' = s.u l') ∧
    (S.atForward k l s).v = s.v ∧ (S.atForward k l s).g = s.g := by
  have hu : ∀ p, (S.atForward k l s).u l p = if p < S.n l then S.atPoint k l s p else s.u l p := by
    intro p
    unfold atForward
    rw [if_neg hL]
    simp only [GState.setU_u_same]
    exact foldl_update_range _ _ _ _
  refine ⟨fun p hp => ?_, fun p hp => ?_, fun l' h => atForward_u_ne s h, atForward_v k l s,
    atForward_g k l s⟩
  · rw [hu, if_pos hp]
    unfold atPoint
    have e1 : max 1 (p + 2 - k) = (p + 1 - k) + 1 := by omega
    have e2 : p + 1 - max 1 (p + 2 - k) = min p (k - 1) := by omega
    rw [e2, e1]
    exact foldl_range'_steps (fun i x => s.g l i + S.Φ l i x) _ _ _
  · rw [hu, if_neg (by omega)]

/-- C35.  Non-interference: two states that agree on the old value at the start of the window and on
the right-hand sides inside the window give the same new value. -/
theorem C35_window_only (hL : S.L ≠ 1) {k l p : Nat} (hk : 1 ≤ k) (hp : p < S.n l) (s s' : GState V)
    (hu : s.u l (p + 1 - k) = s'.u l (p + 1 - k))
    (hg : ∀ i, p + 1 - k < i → i ≤ p → s.g l i = s'.g l i) :
    (S.atForward k l s).u l p = (S.atForward k l s').u l p := by
  rw [(C35_window_value hL hk s).1 p hp, (C35_window_value hL hk s').1 p hp, hu]
  have key : ∀ m, m ≤ min p (k - 1) → ∀ x,
      stepsFrom (fun i x => s.g l i + S.Φ l i x) (p + 1 - k) m x =
      stepsFrom (fun i x => s'.g l i + S.Φ l i x) (p + 1 - k) m x := by
    intro m
    induction m with
    | zero => intros; rfl
    | succ m ih =>
      intro hm x
      simp only [stepsFrom]
      rw [ih (by omega), hg _ (by omega) (by omega)]
  exact key _ (Nat.le_refl _) _

/-- C35.  The indices read for point `p` are inside the grid exactly for `k ≥ 1`; for `k = 0` the
start index of the last point is one beyond the end, where the code raises an `IndexError`. -/
theorem C35_in_range (k n : Nat) (hn : 0 < n) :
    (∀ p, p < n → p + 1 - k < n) ↔ 1 ≤ k := by
  constructor
  · intro h
    have := h (n - 1) (by omega)
    omega
  · intro hk p hp; omega

/-- C34.  With `k` at least the number of coarsest points, and at least two levels, the coarsest solve
is that of MGRIT. -/
theorem C34_coarsest_solve (hL : S.L ≠ 1) {k l : Nat} (hl : l ≠ 0) (hk : S.n l ≤ k) (s : GState V) :
    S.atForward k l s = S.forwardSolve l s := by
  by_cases h0 : S.n l = 0
  · have : S.forwardSolve l s = s.setU l (s.u l) := by
      unfold forwardSolve; rw [h0]; rfl
    rw [this]
    unfold atForward; rw [if_neg hL, h0]; rfl
  obtain ⟨h1, h2, h3, h4, h5⟩ := C35_window_value hL (l := l) (show 1 ≤ k by omega) s
  apply GState.ext
  · funext l' i
    by_cases hl' : l' = l
    · subst hl'
      induction i with
      | zero =>
        rw [h1 0 (by omega), forwardSolve_zero]
        have : 0 + 1 - k = 0 := by omega
        rw [this]; simp [stepsFrom]
      | succ i ih =>
        by_cases hi : i + 1 < S.n l'
        · rw [forwardSolve_pos s (by omega) hi, Nat.add_sub_cancel, ← ih, h1 _ hi, h1 i (by omega)]
          have e1 : i + 1 + 1 - k = 0 := by omega
          have e2 : i + 1 - k = 0 := by omega
          have e3 : min (i + 1) (k - 1) = i + 1 := by omega
          have e4 : min i (k - 1) = i := by omega
          rw [e1, e2, e3, e4]
          simp only [stepsFrom, Nat.zero_add]
          unfold prop
          rw [if_neg hl]
        · rw [h2 _ (by omega)]
          simp only [forwardSolve, GState.setU_u_same]
          exact (sweep_of_not_mem (by simp; omega)).symm
    · rw [h3 l' hl', forwardSolve_u_ne s hl']
  · exact h4
  · exact h5

variable [Sub V] [SMul K V] [One K] [Sub K]

/-- The coarsest-level solver is only ever called on the coarsest level. -/
theorem vcyc_congr {co co' : Nat → GState V → GState V} (h : ∀ s, co (S.L - 1) s = co' (S.L - 1) s)
    (d l it : Nat) (ff : Bool) (hd : l + d + 1 = S.L) (s : GState V) :
    S.vcyc co d l it ff s = S.vcyc co' d l it ff s := by
  induction d generalizing l ff s with
  | zero =>
    have : l = S.L - 1 := by omega
    subst this; exact h s
  | succ d ih => simp only [vcyc]; rw [ih (l + 1) true (by omega)]

theorem iteration_congr {co co' : Nat → GState V → GState V}
    (h : ∀ s, co (S.L - 1) s = co' (S.L - 1) s) (d l it : Nat) (cyc : Cycle) (ff : Bool)
    (hd : l + d + 1 = S.L) (s : GState V) :
    S.iteration co d l cyc it ff s = S.iteration co' d l cyc it ff s := by
  induction d generalizing l ff s with
  | zero =>
    have : l = S.L - 1 := by omega
    subst this; exact h s
  | succ d ih =>
    simp only [iteration]
    rw [ih (l + 1) true (by omega)]
    split
    · exact vcyc_congr h (d + 1) l it false hd _
    · rfl

theorem nestedLoop_congr {co co' : Nat → GState V → GState V}
    (h : ∀ s, co (S.L - 1) s = co' (S.L - 1) s) (m : Nat) (hm : m < S.L) (s : GState V) :
    S.nestedLoop co m s = S.nestedLoop co' m s := by
  induction m generalizing s with
  | zero => rfl
  | succ m ih =>
    simp only [nestedLoop]
    rw [ih (by omega)]
    congr 1
    split
    · exact iteration_congr h _ _ _ _ _ (by omega) _
    · rfl

theorem solveLoop_congr {co co' : Nat → GState V → GState V} (hL : 0 < S.L)
    (h : ∀ s, co (S.L - 1) s = co' (S.L - 1) s) (c : Ctl V N) (k it : Nat) (s : Run V N) :
    S.solveLoop c co k it s = S.solveLoop c co' k it s := by
  induction k generalizing it s with
  | zero => rfl
  | succ k ih =>
    have e : S.solveBody c co it s = S.solveBody c co' it s := by
      simp only [solveBody, fineIteration]
      rw [iteration_congr h (S.L - 1) 0 it c.cyc true (by omega) s.st]
    simp only [solveLoop, e, ih]

/-- C34.  Hence the whole run, constructor and `solve`, agrees with that of MGRIT: solution on all
levels, convergence values, iteration count, calls of the output function. -/
theorem C34_whole_run (hL : 2 ≤ S.L) {k : Nat} (hk : S.n (S.L - 1) ≤ k) (c : Ctl V N) (s : Run V N) :
    S.solve c (S.atForward k) (S.setup c (S.atForward k) s) =
      S.solve c S.forwardSolve (S.setup c S.forwardSolve s) := by
  have h : ∀ s : GState V, S.atForward k (S.L - 1) s = S.forwardSolve (S.L - 1) s :=
    fun s => C34_coarsest_solve (by omega) (by omega) hk s
  have e : S.setup c (S.atForward k) s = S.setup c S.forwardSolve s := by
    have : S.nestedIteration (S.atForward k) s.st = S.nestedIteration S.forwardSolve s.st := by
      unfold nestedIteration
      rw [h, nestedLoop_congr h (S.L - 1) (by omega)]
    unfold setup
    rw [this]
  rw [e]
  unfold solve
  rw [solveLoop_congr (by omega) h]

/-- C34.  On a single level AT-MGRIT does not time-step at all: the fine iterate never changes, where
MGRIT computes the sequential solution (C10). -/
theorem C34_one_level (hL : S.L = 1) (k : Nat) (c : Ctl V N) (s : Run V N) :
    (S.solve c (S.atForward k) (S.setup c (S.atForward k) s)).st = s.st := by
  have h : ∀ s : GState V, S.atForward k 0 s = s := fun s => by unfold atForward; rw [if_pos hL]
  have e : (S.setup c (S.atForward k) s).st = s.st := by
    rw [setup_st]
    split
    · unfold nestedIteration; rw [hL]; exact h _
    · rfl
  by_cases hmax : c.maxIter = 0
  · rw [(C17_no_iterations c _ _ hmax).1, e]
  · obtain ⟨m, -, -, -, e', -⟩ := C17_stopping_rule (S := S) c (S.atForward k)
      (S.setup c (S.atForward k) s) (by omega)
    rw [e', e]
    clear e'
    induction m with
    | zero => rfl
    | succ m ih =>
      show S.fineIteration _ _ _ _ = _
      rw [ih]
      unfold fineIteration; rw [hL]; exact h _

end atm

/-! ## C36 -/

section
variable [AddCommGroup V]

/-- Stepping along an exact piece of the coarse solution reproduces it. -/
theorem stepsFrom_exact {l : Nat} (hl : l ≠ 0) {s : GState V} {p a m : Nat} (he : Exact S l s p)
    (hm : a + m ≤ p) (hn : a + m < S.n l) :
    stepsFrom (fun i x => s.g l i + S.Φ l i x) a m (s.u l a) = s.u l (a + m) := by
  induction m with
  | zero => rfl
  | succ m ih =>
    have := he (a + m + 1) (by omega) (by omega) (by omega)
    unfold prop at this
    rw [if_neg hl, Nat.add_sub_cancel] at this
    simp only [stepsFrom]
    rw [ih (by omega) (by omega)]
    exact this.symm

theorem keeps_atForward (k : Nat) (hk : 1 ≤ k) (hL : 2 ≤ S.L) (s : GState V)
    (hn : 0 < S.n (S.L - 1)) : Keeps (S.L - 1) s (S.atForward k (S.L - 1) s) := by
  refine ⟨fun l' h => atForward_u_ne s (by omega), fun _ _ => by rw [atForward_v],
    fun _ _ => by rw [atForward_g], ?_⟩
  rw [(C35_window_value (by omega) hk s).1 0 hn]
  have : 0 + 1 - k = 0 := by omega
  rw [this]; simp [stepsFrom]

theorem pres_atForward {k : Nat} (hk : 1 ≤ k) (hL : 2 ≤ S.L) (hn : 0 < S.n (S.L - 1)) (s : GState V) :
    Pres S (S.L - 1) s (S.atForward k (S.L - 1) s) := by
  refine ⟨keeps_atForward k hk hL s hn, fun p he i hp hi => ?_⟩
  rw [(C35_window_value (by omega) hk s).1 i hi, stepsFrom_exact (by omega) he (by omega) (by omega)]
  congr 1
  omega

theorem grows_atForward {k : Nat} (hk : 2 ≤ k) (hL : 2 ≤ S.L) (hn : 0 < S.n (S.L - 1)) (s : GState V) :
    Grows S (S.L - 1) s (S.atForward k (S.L - 1) s) := by
  intro p he i h1 hi hin
  have hpres := pres_atForward (S := S) (show 1 ≤ k by omega) hL hn s
  rcases Nat.lt_or_eq_of_le hi with h2 | rfl
  · exact hpres.exact he i h1 (by omega) hin
  rw [Nat.add_sub_cancel, hpres.2 p he p (Nat.le_refl p) (by omega),
    (C35_window_value (by omega) (by omega) s).1 _ hin]
  have e : min (p + 1) (k - 1) = min p (k - 2) + 1 := by omega
  rw [e]
  simp only [stepsFrom]
  rw [stepsFrom_exact (by omega) he (by omega) (by omega)]
  have e2 : p + 1 + 1 - k + min p (k - 2) = p := by omega
  rw [e2, atForward_g]
  unfold prop
  rw [if_neg (by omega)]

variable [Ring K] [Module K V]

/-- C36.  If the fine iterate is the sequential solution, an AT-MGRIT iteration with any `k ≥ 1` leaves
it unchanged and all residuals vanish. -/
theorem C36_fixed_point (h : S.WF) (hL : 2 ≤ S.L) {k : Nat} (hk : 1 ≤ k)
    (hR : ∀ l, l + 1 < S.L → S.R l 0 = 0) (hI : ∀ l, l + 1 < S.L → S.I l 0 = 0)
    (cyc : Cycle) (it : Nat) (s : GState V) (hs : Solved (S.Φ 0) (S.n 0) (s.u 0)) :
    (∀ i, i < S.n 0 → (S.fineIteration (S.atForward k) cyc it s).u 0 i = s.u 0 i) ∧
    Solved (S.Φ 0) (S.n 0) ((S.fineIteration (S.atForward k) cyc it s).u 0) ∧
    ∀ x, x ∈ S.residuals (S.fineIteration (S.atForward k) cyc it s) → x = 0 := by
  have hn := h.npos (S.L - 1) (by omega)
  have hpres : Pres S 0 s (S.fineIteration (S.atForward k) cyc it s) :=
    h.pres_iteration hR hI (fun s => pres_atForward hk hL hn s) (S.L - 1) 0 it cyc true (by omega) s
  have hex : Exact S 0 s (S.n 0) := (exact_zero_iff S s _).2 ((solved_iff_solvedTo _ _ _).1 hs)
  have hsame := hpres.2 _ hex
  have hsol : Solved (S.Φ 0) (S.n 0) ((S.fineIteration (S.atForward k) cyc it s).u 0) :=
    (solved_iff_solvedTo _ _ _).2 ((exact_zero_iff S _ _).1 (hpres.exact hex))
  refine ⟨fun i hi => hsame i (by omega) hi, hsol, ?_⟩
  intro x hx
  simp only [residuals, List.mem_map, List.mem_filter, decide_eq_true_eq] at hx
  obtain ⟨i, ⟨hiC, hi0⟩, rfl⟩ := hx
  have hin : i < S.n 0 := h.C_lt 0 (by omega) i hiC
  have := (solved_iff _ _ _).1 hsol i (by omega) hin
  rw [← this, sub_self]

/-- C36.  With copying transfers and `k ≥ 2`, after `m` iterations (any weight, cycle, levels) the
iterate is the sequential solution at every point before the C-point number `m + 1`; with weight one,
before the C-point number `m·(cf+1) + 1`. -/
theorem C36_prefix (h : S.WF) (hL : 2 ≤ S.L) {k : Nat} (hk : 2 ≤ k)
    (hR : ∀ l x, S.R l x = x) (hI : ∀ l x, S.I l x = x) (cyc : Cycle) (m : Nat) (hm : 1 ≤ m)
    (s : GState V) (i : Nat) (hi : i < S.n 0)
    (hic : ∀ c, (S.C 0)[m + 1]? = some c → i < c) :
    (iterates S (S.atForward k) cyc m s).u 0 i =
      seqSol (S.Φ 0) ((iterates S (S.atForward k) cyc m s).u 0 0) i := by
  obtain ⟨m, rfl⟩ : ∃ j, m = j + 1 := ⟨m - 1, by omega⟩
  have hn := h.npos (S.L - 1) (by omega)
  have hex := h.iterates_interval_anyw (by omega) (fun l _ => hR l 0) (fun l _ => hI l 0)
    (fun l _ x => by rw [hR, hI]) (coarse := S.atForward k)
    (fun s => pres_atForward (by omega) hL hn s) (fun s => grows_atForward hk hL hn s) cyc m s
  rw [exact_zero_iff] at hex
  refine hex i ?_ hi
  unfold intEnd
  have hlen := h.C_len 0 (by omega)
  split
  · have := hic (S.cpt 0 (m + 1 + 1)) (by
      rw [cpt_eq (by omega), List.getElem?_eq_getElem (by omega)])
    omega
  · omega

theorem C36_prefix_weight_one (h : S.WF) (hL : 2 ≤ S.L) (hw : S.w = 1) {k : Nat} (hk : 2 ≤ k)
    (hR : ∀ l x, S.R l x = x) (hI : ∀ l x, S.I l x = x) (cyc : Cycle) (m : Nat) (hm : 1 ≤ m)
    (s : GState V) (i : Nat) (hi : i < S.n 0)
    (hic : ∀ c, (S.C 0)[m * (S.cf 0 + 1) + 1]? = some c → i < c) :
    (iterates S (S.atForward k) cyc m s).u 0 i =
      seqSol (S.Φ 0) ((iterates S (S.atForward k) cyc m s).u 0 0) i := by
  obtain ⟨m, rfl⟩ : ∃ j, m = j + 1 := ⟨m - 1, by omega⟩
  have hn := h.npos (S.L - 1) (by omega)
  have hex := h.iterates_interval hw (by omega) (fun l _ => hR l 0) (fun l _ => hI l 0)
    (fun l _ x => by rw [hR, hI]) (coarse := S.atForward k)
    (fun s => pres_atForward (by omega) hL hn s) (fun s => grows_atForward hk hL hn s) cyc m s
  rw [exact_zero_iff] at hex
  refine hex i ?_ hi
  unfold intEnd
  have hlen := h.C_len 0 (by omega)
  split
  · have := hic (S.cpt 0 ((m + 1) * (S.cf 0 + 1) + 1)) (by
      rw [cpt_eq (by omega), List.getElem?_eq_getElem (by omega)])
    omega
  · omega

/-- C36.  Finite termination: as many iterations as coarse intervals suffice. -/
theorem C36_finite_termination (h : S.WF) (hL : 2 ≤ S.L) {k : Nat} (hk : 2 ≤ k)
    (hR : ∀ l x, S.R l x = x) (hI : ∀ l x, S.I l x = x) (cyc : Cycle) (m : Nat) (hm : 1 ≤ m)
    (hm' : S.n 1 - 1 ≤ m) (s : GState V) :
    Solved (S.Φ 0) (S.n 0) ((iterates S (S.atForward k) cyc m s).u 0) := by
  intro i hi
  refine C36_prefix h hL hk hR hI cyc m hm s i hi ?_
  intro c hc
  have hlen : (S.C 0).length = S.n 1 := h.C_len 0 (by omega)
  obtain ⟨hlt, -⟩ := List.getElem?_eq_some_iff.1 hc
  omega

end

/-- The hypotheses are met by the three-level example. -/
example : (exCfg 1).sys.WF ∧ 2 ≤ (exCfg 1).sys.L ∧ (exCfg 1).sys.n ((exCfg 1).sys.L - 1) ≤ 3 ∧
    (∀ l x, (exCfg 1).sys.R l x = x) ∧ (∀ l x, (exCfg 1).sys.I l x = x) ∧
    (exCfg 1).sys.n 1 - 1 ≤ 4 :=
  ⟨exSys_wf 1, by decide, by decide, fun _ _ => rfl, fun _ _ => rfl, by decide⟩

/-- For `k = 2` the coarsest solve of AT-MGRIT differs from that of MGRIT. -/
example : ((exCfg 1).sys.atForward 2 2 ⟨fun _ i => (i : Int) + 2, fun _ _ => 0, fun _ _ => 0⟩).u 2 2 ≠
    ((exCfg 1).sys.forwardSolve 2 ⟨fun _ i => (i : Int) + 2, fun _ _ => 0, fun _ _ => 0⟩).u 2 2 := by
  decide

end Pymgrit
