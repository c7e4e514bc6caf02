import Verif.SweepFacts

/-! Helper facts about the solve loop. -/

set_option linter.unusedSectionVars false

namespace Pymgrit
namespace Sys
variable {V K N : Type} [Add V] [Sub V] [SMul K V] [One K] [Sub K] (S : Sys V K) (c : Ctl V N)
  (coarse : Nat → GState V → GState V)

/-- The first `k` passes of the loop body. -/
def bodies : Nat → Run V N → Run V N
  | 0, s => s
  | k + 1, s => S.solveBody c coarse k (bodies k s)

theorem solveBody_st (it : Nat) (s : Run V N) :
    (S.solveBody c coarse it s).st = S.fineIteration coarse c.cyc it s.st := by
  unfold solveBody convergence Run.output
  split <;> split <;> rfl

theorem solveBody_iter (it : Nat) (s : Run V N) : (S.solveBody c coarse it s).iter = it + 1 := by
  unfold solveBody convergence Run.output
  split <;> split <;> rfl

theorem solveBody_conv_ne (it : Nat) (s : Run V N) {j : Nat} (hj : j ≠ it + 1) :
    (S.solveBody c coarse it s).conv j = s.conv j := by
  unfold solveBody convergence Run.output
  split <;> split <;> simp [hj]

theorem solveBody_conv (it : Nat) (s : Run V N) :
    (S.solveBody c coarse it s).conv (it + 1) =
      if c.convCrit = 0 then
        c.tnorm ((S.residuals (S.fineIteration coarse c.cyc it s.st)).map c.norm)
      else c.tnorm ((S.jumps s.saved (S.fineIteration coarse c.cyc it s.st)).map c.norm) := by
  unfold solveBody convergence Run.output
  by_cases h : c.convCrit = 0
  · simp only [h, if_true]; split <;> simp
  · simp only [h, if_false]; split <;> simp

theorem solveBody_saved (it : Nat) (s : Run V N) (h : c.convCrit ≠ 0) :
    (S.solveBody c coarse it s).saved = (S.fineIteration coarse c.cyc it s.st).u 0 := by
  unfold solveBody convergence Run.output
  simp only [h, if_false]; split <;> rfl

theorem solveBody_outs (it : Nat) (s : Run V N) :
    (S.solveBody c coarse it s).outs = s.outs ++
      if c.outLvl = 2 then [(it + 1, (S.fineIteration coarse c.cyc it s.st).u 0)] else [] := by
  unfold solveBody convergence Run.output
  split <;> split <;> simp

theorem bodies_st (k : Nat) (s : Run V N) :
    (S.bodies c coarse k s).st = iterates S coarse c.cyc k s.st := by
  induction k with
  | zero => rfl
  | succ k ih =>
    show (S.solveBody c coarse k _).st = S.fineIteration coarse c.cyc k _
    rw [solveBody_st, ih]

theorem bodies_iter (k : Nat) (s : Run V N) :
    (S.bodies c coarse (k + 1) s).iter = k + 1 := solveBody_iter S c coarse k _

theorem bodies_saved (k : Nat) (s : Run V N) (h : c.convCrit ≠ 0) :
    (S.bodies c coarse k s).saved = S.savedAt c coarse s k := by
  cases k with
  | zero => rfl
  | succ k =>
    show (S.solveBody c coarse k _).saved = _
    rw [solveBody_saved S c coarse k _ h, bodies_st]; rfl

theorem bodies_conv_out (k : Nat) (s : Run V N) {j : Nat} (hj : j = 0 ∨ k < j) :
    (S.bodies c coarse k s).conv j = s.conv j := by
  induction k with
  | zero => rfl
  | succ k ih =>
    show (S.solveBody c coarse k _).conv j = _
    rw [solveBody_conv_ne S c coarse k _ (by omega), ih (by omega)]

theorem bodies_conv (k : Nat) (s : Run V N) {j : Nat} (hj : j < k) :
    (S.bodies c coarse k s).conv (j + 1) = S.critValue c coarse s j := by
  induction k with
  | zero => omega
  | succ k ih =>
    show (S.solveBody c coarse k _).conv (j + 1) = _
    by_cases hjk : j = k
    · subst hjk
      rw [solveBody_conv]
      unfold critValue
      by_cases hc : c.convCrit = 0
      · simp only [hc, if_true]; rw [bodies_st, residuals, List.map_map]; rfl
      · simp only [hc, if_false]
        rw [bodies_st, bodies_saved S c coarse j s hc, jumps, List.map_map]; rfl
    · rw [solveBody_conv_ne S c coarse k _ (by omega), ih (by omega)]

theorem bodies_outs (k : Nat) (s : Run V N) :
    (S.bodies c coarse k s).outs = s.outs ++
      if c.outLvl = 2 then
        (List.range k).map fun j => (j + 1, (iterates S coarse c.cyc (j + 1) s.st).u 0)
      else [] := by
  induction k with
  | zero => simp [bodies]
  | succ k ih =>
    show (S.solveBody c coarse k _).outs = _
    rw [solveBody_outs, ih, bodies_st]
    by_cases h : c.outLvl = 2
    · simp [h, List.range_succ, iterates]
    · simp [h]

/-- The loop performs `m` passes, the last one being the first that meets the stopping test. -/
theorem solveLoop_eq (k it : Nat) (s : Run V N) (hk : 0 < k) :
    ∃ m, it < m ∧ m ≤ it + k ∧
      S.solveLoop c coarse k it (S.bodies c coarse it s) = S.bodies c coarse m s ∧
      (∀ j, it < j → j < m → stops c (j - 1) (S.bodies c coarse j s) = false) ∧
      (stops c (m - 1) (S.bodies c coarse m s) = true ∨ m = it + k) := by
  induction k generalizing it with
  | zero => omega
  | succ k ih =>
    simp only [solveLoop]
    by_cases hs : stops c it (S.solveBody c coarse it (S.bodies c coarse it s)) = true
    · refine ⟨it + 1, by omega, by omega, ?_, fun j h1 h2 => by omega, Or.inl hs⟩
      rw [if_pos hs]; rfl
    · have hs' : stops c it (S.bodies c coarse (it + 1) s) = false := (Bool.not_eq_true _).mp hs
      rw [if_neg hs]
      by_cases hk0 : k = 0
      · subst hk0
        exact ⟨it + 1, by omega, by omega, rfl, fun j h1 h2 => by omega, Or.inr rfl⟩
      · obtain ⟨m, h1, h2, h3, h4, h5⟩ := ih (it + 1) (by omega)
        refine ⟨m, by omega, by omega, h3, ?_, ?_⟩
        · intro j hj1 hj2
          by_cases hj : j = it + 1
          · subst hj; exact hs'
          · exact h4 j (by omega) hj2
        · rcases h5 with h5 | h5
          · exact Or.inl h5
          · exact Or.inr (by omega)

/-- Number of performed iterations and stopping reason of `solve`. -/
theorem solve_spec (s : Run V N) (hmax : 0 < c.maxIter) :
    ∃ m, 1 ≤ m ∧ m ≤ c.maxIter ∧
      S.solve c coarse s = (if c.outLvl = 1 then (S.bodies c coarse m s).output
        else S.bodies c coarse m s) ∧
      (∀ j, j + 1 < m → c.ltTol (S.critValue c coarse s j) = false) ∧
      (c.ltTol (S.critValue c coarse s (m - 1)) = true ∨ m = c.maxIter) := by
  obtain ⟨m, h1, h2, h3, h4, h5⟩ := S.solveLoop_eq c coarse c.maxIter 0 s hmax
  refine ⟨m, h1, by omega, ?_, ?_, ?_⟩
  · unfold solve
    have : S.bodies c coarse 0 s = s := rfl
    rw [this] at h3
    rw [h3]
  · intro j hj
    have := h4 (j + 1) (by omega) hj
    unfold stops at this
    rw [Nat.add_sub_cancel, bodies_conv S c coarse (j + 1) s (by omega), Bool.or_eq_false_iff] at this
    exact this.1
  · rcases h5 with h5 | h5
    · unfold stops at h5
      obtain ⟨m, rfl⟩ : ∃ m', m = m' + 1 := ⟨m - 1, by omega⟩
      rw [Nat.add_sub_cancel] at h5 ⊢
      rw [bodies_conv S c coarse (m + 1) s (by omega), Bool.or_eq_true, decide_eq_true_eq] at h5
      exact h5
    · exact Or.inr (by omega)

end Sys
end Pymgrit
