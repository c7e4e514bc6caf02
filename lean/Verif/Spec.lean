import Verif.Driver
import Verif.Exact

/-!
# Specification vocabulary

Small definitions, independent of the solver, in which the properties are stated.
-/

namespace Pymgrit

/-- Sequential time stepping: start value, then one step after the other.  `Φ i` is the step from
point `i - 1` to point `i`. -/
def seqSol {V : Type} (Φ : Nat → V → V) (x0 : V) : Nat → V
  | 0 => x0
  | i + 1 => Φ (i + 1) (seqSol Φ x0 i)

/-- `m` steps of `Ψ` starting after point `a`: to points `a + 1, …, a + m`. -/
def stepsFrom {V : Type} (Ψ : Nat → V → V) (a : Nat) : Nat → V → V
  | 0, x => x
  | m + 1, x => Ψ (a + m + 1) (stepsFrom Ψ a m x)

/-- The array `x` holds the sequential solution at the points `0, …, p` of a grid with `n` points. -/
def SolvedTo {V : Type} (Φ : Nat → V → V) (n p : Nat) (x : Nat → V) : Prop :=
  ∀ i, i ≤ p → i < n → x i = seqSol Φ (x 0) i

/-- The array `x` holds the sequential solution at all points. -/
def Solved {V : Type} (Φ : Nat → V → V) (n : Nat) (x : Nat → V) : Prop :=
  ∀ i, i < n → x i = seqSol Φ (x 0) i

/-- The first `k` iterations of `solve` (iteration numbers `0, …, k-1`), without stopping test. -/
def iterates {V K : Type} [Add V] [Sub V] [SMul K V] [One K] [Sub K] (S : Sys V K)
    (coarse : Nat → GState V → GState V) (cyc : Sys.Cycle) : Nat → GState V → GState V
  | 0, s => s
  | k + 1, s => S.fineIteration coarse cyc k (iterates S coarse cyc k s)

section
variable {V K N : Type} [Add V] [Sub V] [SMul K V] [One K] [Sub K] (S : Sys V K) (c : Ctl V N)
  (coarse : Nat → GState V → GState V)

/-- Iterate saved for the jump criterion when iteration `j` starts. -/
def Sys.savedAt (s : Run V N) : Nat → Nat → V
  | 0 => s.saved
  | j + 1 => (iterates S coarse c.cyc (j + 1) s.st).u 0

/-- The value the criterion assigns to iteration `j + 1`: the norm in time of the norms, over all
C-points but the first point, of the residual `Φ(u_{i-1}) - u_i` (criterion 0) or of the difference to
the iterate before (otherwise). -/
def Sys.critValue (s : Run V N) (j : Nat) : N :=
  let u := (iterates S coarse c.cyc (j + 1) s.st).u 0
  let pts := (S.C 0).filter (· ≠ 0)
  if c.convCrit = 0 then c.tnorm (pts.map fun i => c.norm (S.Φ 0 i (u (i - 1)) - u i))
  else c.tnorm (pts.map fun i => c.norm (u i - S.savedAt c coarse s j i))

end

theorem solvedTo_iff {V : Type} (Φ : Nat → V → V) (n p : Nat) (x : Nat → V) :
    SolvedTo Φ n p x ↔ ∀ i, 1 ≤ i → i ≤ p → i < n → x i = Φ i (x (i - 1)) := by
  constructor
  · intro h i h1 hp hn
    rw [h i hp hn, h (i - 1) (by omega) (by omega)]
    obtain ⟨j, rfl⟩ : ∃ j, i = j + 1 := ⟨i - 1, by omega⟩
    rfl
  · intro h i
    induction i with
    | zero => intro _ _; rfl
    | succ i ih =>
      intro hp hn
      rw [h (i + 1) (by omega) hp hn, Nat.add_sub_cancel, ih (by omega) (by omega)]
      rfl

theorem solved_iff_solvedTo {V : Type} (Φ : Nat → V → V) (n : Nat) (x : Nat → V) :
    Solved Φ n x ↔ SolvedTo Φ n n x :=
  ⟨fun h i _ hn => h i hn, fun h i hn => h i (by omega) hn⟩

theorem solved_iff {V : Type} (Φ : Nat → V → V) (n : Nat) (x : Nat → V) :
    Solved Φ n x ↔ ∀ i, 1 ≤ i → i < n → x i = Φ i (x (i - 1)) := by
  rw [solved_iff_solvedTo, solvedTo_iff]
  exact ⟨fun h i h1 hn => h i h1 (by omega) hn, fun h i h1 _ hn => h i h1 hn⟩

theorem Sys.exact_zero_iff {V K : Type} [AddCommGroup V] (S : Sys V K) (s : GState V) (p : Nat) :
    Sys.Exact S 0 s p ↔ SolvedTo (S.Φ 0) (S.n 0) p (s.u 0) := by
  rw [solvedTo_iff]
  rfl

end Pymgrit
