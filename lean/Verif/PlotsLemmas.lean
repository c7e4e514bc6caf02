import Verif.Plots
import Mathlib.Tactic.Linarith

/-! Lemmas on the cycle plot. -/

namespace Pymgrit
namespace Plot
open Sys Trace

/-- The letters of an operation in the plots: `F`, `C` for the relaxations, `S` for the coarsest solve; the FAS
residual, the correction and the interpolation have no letter. -/
def letter : OpKind × Nat → Option (Nat × Char)
  | (.fRelax, l) => some (l, 'F')
  | (.cRelax, l) => some (l, 'C')
  | (.solve, l) => some (l, 'S')
  | _ => none

/-- The letters of a sequence of operations, each with its level. -/
def letters (ops : List (OpKind × Nat)) : List (Nat × Char) := ops.filterMap letter

/-- The letters of texts at heights, each with its level on `L` levels (height 0 is the coarsest level). -/
def drawn (L : Nat) (nodes : List Node) : List (Nat × Char) :=
  nodes.flatMap fun p => p.text.map fun ch => (L - 1 - p.h, ch)

/-- The letters of heights with their texts. -/
def txt (L : Nat) (result : List Int) (strings : List (List Char)) : List (Nat × Char) :=
  (result.zip strings).flatMap fun p => p.2.map fun ch => (L - 1 - p.1.natAbs, ch)

theorem drawn_place (L x0 : Nat) (result : List Int) (strings : List (List Char)) :
    drawn L (place x0 result strings) = txt L result strings := by
  unfold drawn place txt
  rw [List.flatMap_map]
  conv_rhs => rw [← List.zipIdx_map_fst 0 (result.zip strings), List.flatMap_map]

/-- The text of a descending node. -/
def downText (k : Nat) : List Char := 'F' :: (List.replicate k ['C', 'F']).flatten

/-- The letters of a list of heights with the texts of `mask`. -/
def lab (L k : Nat) (result : List Int) : List (Nat × Char) :=
  result.flatMap fun r => (label (downText k) r).map fun ch => (L - 1 - r.natAbs, ch)

theorem txt_map (L k : Nat) (result : List Int) :
    txt L result (result.map (label (downText k))) = lab L k result := by
  unfold txt lab
  induction result with
  | nil => rfl
  | cons r rs ih => simp [ih]

theorem lab_append (L k : Nat) (a b : List Int) : lab L k (a ++ b) = lab L k a ++ lab L k b := by
  simp [lab]

theorem lins_zero : lins 0 = [0] := rfl

theorem lins_succ (i : Nat) : lins (i + 1) = (-((i + 1 : Nat) : Int)) :: lins i ++ [((i + 1 : Nat) : Int)] := by
  unfold lins
  rw [show 2 * (i + 1) + 1 = (2 * i + 1) + 1 + 1 by ring, List.range_succ, List.range_succ_eq_map]
  simp only [List.map_append, List.map_cons, List.map_map, List.map_nil, List.cons_append]
  congr 1
  congr 1
  · apply List.map_congr_left
    intro k _
    simp
  · simp only [List.cons.injEq, and_true]
    push_cast; ring

theorem desc_succ (d : Nat) : desc (d + 2) = (-((d + 1 : Nat) : Int)) :: desc (d + 1) := by
  unfold desc
  rw [List.range_succ_eq_map, List.map_cons, List.map_map, List.dropLast_cons_of_ne_nil (by simp [List.range_succ])]
  congr 1
  congr 1
  apply List.map_congr_left
  intro k _
  simp

theorem letters_fas (l : Nat) : letters [(OpKind.fas, l)] = [] := rfl
theorem letters_post (l : Nat) : letters [(OpKind.corr, l), (OpKind.fRelax, l)] = [(l, 'F')] := rfl
theorem letters_pre (l : Nat) : letters [(OpKind.fRelax, l)] = [(l, 'F')] := rfl

/-- The letters of the CF-relaxations. -/
def cfLetters (l k : Nat) : List (Nat × Char) := (List.replicate k [(l, 'C'), (l, 'F')]).flatten

theorem letters_append (a b : List (OpKind × Nat)) : letters (a ++ b) = letters a ++ letters b := by
  simp [letters]

theorem letters_cf (l k : Nat) :
    letters (List.replicate k [(OpKind.cRelax, l), (OpKind.fRelax, l)]).flatten = cfLetters l k := by
  induction k with
  | zero => rfl
  | succ k ih =>
    rw [List.replicate_succ, List.flatten_cons, letters_append, ih]
    simp [cfLetters, List.replicate_succ, letters, letter]

theorem downText_letters (l k : Nat) :
    ((downText k).map fun ch => (l, ch)) = (l, 'F') :: cfLetters l k := by
  simp [downText, cfLetters, List.map_flatten]

theorem lab_lins_succ (L k d : Nat) : lab L k (lins (d + 1)) =
    ((L - 1 - (d + 1), 'F') :: cfLetters (L - 1 - (d + 1)) k) ++ lab L k (lins d) ++ [(L - 1 - (d + 1), 'F')] := by
  rw [lins_succ]
  rw [show ∀ (a : Int) b c, a :: b ++ c = [a] ++ b ++ c from fun _ _ _ => rfl, lab_append, lab_append]
  congr 1
  congr 1
  · have h : (-((d + 1 : Nat) : Int)) < 0 := by omega
    simp only [lab, List.flatMap_cons, List.flatMap_nil, List.append_nil, label, if_pos h, Int.natAbs_neg,
      Int.natAbs_natCast]
    exact downText_letters _ _

/-- The letters of a V-cycle that starts with an F-relaxation. -/
theorem letters_vops {cf : Nat → Nat} {L k : Nat} (hcf : ∀ l, l + 1 < L → cf l = k) (d l it : Nat) (hL : l + d + 1 = L)
    (hit : 0 < l ∨ it = 0) : letters (vops cf d l it true) = lab L k (lins d) := by
  induction d generalizing l with
  | zero =>
    have : l = L - 1 := by omega
    subst this
    simp [vops, letters, letter, lins_zero, lab, label]
  | succ d ih =>
    have hl : L - 1 - (d + 1) = l := by omega
    rw [lab_lins_succ, vops, hl, if_pos ⟨by omega, rfl⟩]
    simp only [letters_append, letters_cf, hcf l (by omega), ih (l + 1) (by omega) (by omega)]
    simp [letters_fas, letters_post, letters_pre]

/-- The letters of a V-cycle without the first F-relaxation. -/
theorem letters_vops_tail {cf : Nat → Nat} {L k : Nat} (hcf : ∀ l, l + 1 < L → cf l = k) (d l it : Nat)
    (hL : l + (d + 1) + 1 = L) (ff : Bool) (hff : ¬ ((0 < l ∨ (it = 0 ∧ l = 0)) ∧ ff = true)) :
    lab L k (lins (d + 1)) = (l, 'F') :: letters (vops cf (d + 1) l it ff) := by
  have hl : L - 1 - (d + 1) = l := by omega
  rw [lab_lins_succ, vops, hl, if_neg hff]
  simp only [letters_append, letters_cf, hcf l (by omega), letters_vops hcf d (l + 1) it (by omega) (by omega)]
  simp [letters_fas, letters_post]; rfl

/-- The letters of the descending part. -/
theorem lab_desc_succ (L k d : Nat) : lab L k (desc (d + 2)) =
    ((L - 1 - (d + 1), 'F') :: cfLetters (L - 1 - (d + 1)) k) ++ lab L k (desc (d + 1)) := by
  rw [desc_succ, show ∀ (a : Int) b, a :: b = [a] ++ b from fun _ _ => rfl, lab_append]
  congr 1
  have h : (-((d + 1 : Nat) : Int)) < 0 := by omega
  simp only [lab, List.flatMap_cons, List.flatMap_nil, List.append_nil, label, if_pos h, Int.natAbs_neg,
    Int.natAbs_natCast]
  exact downText_letters _ _

/-- The letters of an F-cycle below the finest level. -/
theorem letters_ops_F {cf : Nat → Nat} {L k : Nat} (hcf : ∀ l, l + 1 < L → cf l = k) (d l it : Nat) (hL : l + d + 1 = L)
    (hl : 0 < l) :
    letters (ops cf d l Cycle.F it true) = lab L k (desc (d + 1)) ++ lab L k ((List.range (d + 1)).flatMap lins) := by
  induction d generalizing l with
  | zero =>
    have : l = L - 1 := by omega
    subst this
    simp [ops, letters, letter, desc, lab, label, lins]
  | succ d ih =>
    have hl' : L - 1 - (d + 1) = l := by omega
    rw [List.range_succ (n := d + 1), List.flatMap_append, lab_append]
    simp only [List.flatMap_cons, List.flatMap_nil, List.append_nil]
    rw [letters_vops_tail hcf d l it hL false (by simp), lab_desc_succ, hl', ops, if_pos ⟨Or.inl hl, rfl⟩,
      if_pos ⟨by omega, rfl⟩]
    simp only [letters_append, letters_cf, hcf l (by omega), ih (l + 1) (by omega) (by omega)]
    simp [letters_fas, letters_post, letters_pre]

/-- The letters of the F-cycle plot: the iteration, and then a V-cycle on the finest level. -/
theorem lab_F {cf : Nat → Nat} {L k : Nat} (hcf : ∀ l, l + 1 < L → cf l = k) (hL : 2 ≤ L) :
    lab L k (resultIter L .F) = letters (ops cf (L - 1) 0 Cycle.F 0 true) ++ letters (vops cf (L - 1) 0 0 false) := by
  obtain ⟨d, rfl⟩ : ∃ d, L = d + 2 := ⟨L - 2, by omega⟩
  have hl' : d + 2 - 1 - (d + 1) = 0 := by omega
  rw [resultIter, lab_append, List.range_succ (n := d + 1), List.flatMap_append, lab_append]
  simp only [List.flatMap_cons, List.flatMap_nil, List.append_nil, Nat.add_one_sub_one]
  rw [letters_vops_tail hcf d 0 0 (by omega) false (by simp), lab_desc_succ, hl']
  rw [show ops cf (d + 1) 0 Cycle.F 0 true = (if (0 < 0 ∨ (0 = 0 ∧ 0 = 0)) ∧ true = true then [(OpKind.fRelax, 0)] else []) ++
    (List.replicate (cf 0) [(OpKind.cRelax, 0), (OpKind.fRelax, 0)]).flatten ++
    [(OpKind.fas, 0)] ++ ops cf d (0 + 1) Cycle.F 0 true ++ [(OpKind.corr, 0), (OpKind.fRelax, 0)] ++
    if 0 ≠ 0 ∧ Cycle.F = Cycle.F then vops cf (d + 1) 0 0 false else [] from rfl]
  rw [if_pos ⟨by omega, rfl⟩, if_neg (by simp)]
  simp only [letters_append, letters_cf, hcf 0 (by omega), letters_ops_F hcf d 1 0 (by omega) (by omega), Nat.zero_add]
  simp [letters_fas, letters_post, letters_pre]; rfl

/-- The letters of nested iteration. -/
theorem letters_nops {cf : Nat → Nat} {L k : Nat} (hcf : ∀ l, l + 1 < L → cf l = k) (l : Nat) (hL : l + 1 ≤ L) (hl : 0 < l) :
    lab L k ((List.range (L - l)).flatMap lins) ++ letters (nops L cf l) = lab L k ((List.range (L - 1)).flatMap lins) := by
  induction l with
  | zero => omega
  | succ l ih =>
    by_cases h0 : l = 0
    · subst h0; simp [nops, letters, letter]
    · have hs : L - l = (L - (l + 1)) + 1 := by omega
      have := ih (by omega) (by omega)
      rw [hs, List.range_succ, List.flatMap_append, lab_append] at this
      rw [← this, nops, if_pos (by omega), ops_V, letters_append]
      simp only [List.flatMap_cons, List.flatMap_nil, List.append_nil, List.append_assoc]
      congr 1
      rw [show ∀ (o : OpKind × Nat) xs, o :: xs = [o] ++ xs from fun _ _ => rfl, letters_append,
        letters_vops hcf (L - 1 - l) l 0 (by omega) (by omega), show L - 1 - l = L - (l + 1) by omega]
      rfl

end Plot
end Pymgrit
