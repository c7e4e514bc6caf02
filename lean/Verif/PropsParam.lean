import Verif.Param
import Verif.Examples
import Mathlib.Algebra.Module.LinearMap.Basic
import Mathlib.LinearAlgebra.Prod
import Mathlib.Tactic.Ring
import Mathlib.Algebra.Module.Submodule.Basic
import Mathlib.Tactic.Abel

/-!
# Properties C73, C74: symmetries and conserved quantities of the problem survive the solver

`iterates S S.forwardSolve cyc (m+1) s` is the state after `m + 1` iterations from the state `s`;
`S.nestedIteration S.forwardSolve s` is the state after nested iteration.
-/

set_option linter.unusedSectionVars false

namespace Pymgrit
open Sys

variable {V K V' K' : Type}

/-! ## C73 -/

section
variable [AddCommGroup V] [SMul K V] [One K] [Sub K] [AddCommGroup V'] [SMul K' V'] [One K'] [Sub K']
  {S : Sys V K} {S' : Sys V' K'}

/-- `S'` is the image of `S` under the additive maps `T l` (one per level): same grids, and steps,
transfers and weighted means commute with `T`. -/
structure Intertwines (S : Sys V K) (S' : Sys V' K') (T : Nat → V →+ V') : Prop where
  L : S'.L = S.L
  n : S'.n = S.n
  C : S'.C = S.C
  F : S'.F = S.F
  cf : S'.cf = S.cf
  step : ∀ l i x, l < S.L → 1 ≤ i → i < S.n l → T l (S.Φ l i x) = S'.Φ l i (T l x)
  relax : ∀ l x y, l + 1 < S.L →
    T l (S.w • x + (1 - S.w) • y) = S'.w • T l x + (1 - S'.w) • T l y
  restrict : ∀ l x, l + 1 < S.L → T (l + 1) (S.R l x) = S'.R l (T l x)
  interp : ∀ l x, l + 1 < S.L → T l (S.I l x) = S'.I l (T (l + 1) x)

theorem Intertwines.respects {T : Nat → V →+ V'} (hT : Intertwines S S' T) :
    Respects S S' (fun l x y => y = T l x) (fun l x y => y = T l x) (fun l x y => y = T l x) where
  L := hT.L
  n := hT.n
  C := hT.C
  F := hT.F
  cf := hT.cf
  step := by rintro l i x _ hl h1 hi rfl; exact (hT.step l i x hl h1 hi).symm
  relax := by rintro l x _ y _ hl rfl rfl; exact (hT.relax l x y hl).symm
  dif := by rintro l x _ y _ rfl rfl; exact (map_sub _ _ _).symm
  difAdd := by rintro l x _ y _ rfl rfl; exact (map_add _ _ _).symm
  addDif := by rintro l x _ y _ rfl rfl; exact (map_add _ _ _).symm
  difSub := by rintro l x _ y _ rfl rfl; exact (map_sub _ _ _).symm
  subAdd := by rintro l x _ y _ rfl rfl; exact (map_add _ _ _).symm
  restrict := by rintro l x _ hl rfl; exact (hT.restrict l x hl).symm
  restrictDif := by rintro l x _ hl rfl; exact (hT.restrict l x hl).symm
  interpDif := by rintro l x _ hl rfl; exact (hT.interp l x hl).symm

/-- C73.  If an additive map carries one problem to another (steps, transfers, relaxation), it carries
the iterates of the one to the iterates of the other, at every point; only the initial values at the
coarse points have to correspond. -/
theorem C73_equivariant (h : S.WF) {T : Nat → V →+ V'} (hT : Intertwines S S' T) (cyc : Cycle)
    (m : Nat) (s : GState V) (s' : GState V') (hs : ∀ i, i ∈ S.C 0 → s'.u 0 i = T 0 (s.u 0 i)) :
    ∀ i, i < S.n 0 → (iterates S' S'.forwardSolve cyc (m + 1) s').u 0 i
      = T 0 ((iterates S S.forwardSolve cyc (m + 1) s).u 0 i) :=
  hT.respects.iterates_rel h (hT.respects.coarse_forward h) cyc m hs

/-- C73.  The same after nested iteration, where only the start values on all levels and the (zero)
right-hand sides have to correspond. -/
theorem C73_equivariant_nested (h : S.WF) {T : Nat → V →+ V'} (hT : Intertwines S S' T) (cyc : Cycle)
    (m : Nat) (s : GState V) (s' : GState V') (hs : ∀ l, l < S.L → s'.u l 0 = T l (s.u l 0))
    (hg : ∀ l i, s.g l i = 0) (hg' : ∀ l i, s'.g l i = 0) :
    ∀ i, i < S.n 0 →
      (iterates S' S'.forwardSolve cyc (m + 1) (S'.nestedIteration S'.forwardSolve s')).u 0 i
        = T 0 ((iterates S S.forwardSolve cyc (m + 1) (S.nestedIteration S.forwardSolve s)).u 0 i) :=
  hT.respects.iterates_rel h (hT.respects.coarse_forward h) cyc m
    (hT.respects.nested_rel h
      (by rintro l x _ hl rfl; exact (hT.interp l x hl).symm) hs
      (fun l _ _ i _ _ => by simp only [hg, hg', map_zero]))

end

/-! ## C74 -/

section
variable [Ring K] [AddCommGroup V] [Module K V] {A : Type} [AddCommGroup A] [Module K A] {S : Sys V K}

/-- Values on which the functionals `q l` take the value `a`. -/
theorem respects_conserved (q : Nat → V →ₗ[K] A) (a : A)
    (hΦ : ∀ l i x, l < S.L → 1 ≤ i → i < S.n l → q l (S.Φ l i x) = q l x)
    (hR : ∀ l x, l + 1 < S.L → q (l + 1) (S.R l x) = q l x)
    (hI : ∀ l x, l + 1 < S.L → q l (S.I l x) = q (l + 1) x) :
    Respects S S (fun l x (_ : V) => q l x = a) (fun l x (_ : V) => q l x = 0)
      (fun l x (_ : V) => q l x = -a) where
  L := rfl
  n := rfl
  C := rfl
  F := rfl
  cf := rfl
  step := fun l i x _ hl h1 hi e => (hΦ l i x hl h1 hi).trans e
  relax := by
    intro l x _ y _ _ ex ey
    rw [map_add, map_smul, map_smul, ex, ey, ← add_smul]
    simp
  dif := by intro l x _ y _ ex ey; rw [map_sub, ex, ey, sub_self]
  difAdd := by intro l x _ y _ ex ey; rw [map_add, ex, ey, zero_add]
  addDif := by intro l x _ y _ ex ey; rw [map_add, ex, ey, add_zero]
  difSub := by intro l x _ y _ ex ey; rw [map_sub, ex, ey, zero_sub]
  subAdd := by intro l x _ y _ ex ey; rw [map_add, ex, ey, neg_add_cancel]
  restrict := fun l x _ hl e => (hR l x hl).trans e
  restrictDif := fun l x _ hl e => (hR l x hl).trans e
  interpDif := fun l x _ hl e => (hI l x hl).trans e

/-- C74.  If a linear quantity (total mass, say) is conserved by every step on every level and by both
transfers, and the initial values at the coarse points carry the amount `a`, then after any positive
number of iterations every point carries exactly `a`, whatever the cycle, weight and relaxations. -/
theorem C74_conserved (h : S.WF) (q : Nat → V →ₗ[K] A) (a : A)
    (hΦ : ∀ l i x, l < S.L → 1 ≤ i → i < S.n l → q l (S.Φ l i x) = q l x)
    (hR : ∀ l x, l + 1 < S.L → q (l + 1) (S.R l x) = q l x)
    (hI : ∀ l x, l + 1 < S.L → q l (S.I l x) = q (l + 1) x) (cyc : Cycle) (m : Nat) (s : GState V)
    (hs : ∀ i, i ∈ S.C 0 → q 0 (s.u 0 i) = a) :
    ∀ i, i < S.n 0 → q 0 ((iterates S S.forwardSolve cyc (m + 1) s).u 0 i) = a :=
  (respects_conserved q a hΦ hR hI).iterates_rel h
    ((respects_conserved q a hΦ hR hI).coarse_forward h) cyc m (s' := s) hs

/-- C74.  With nested iteration it suffices that the start value carries `a` on every level: the initial
guess may be anything. -/
theorem C74_conserved_nested (h : S.WF) (q : Nat → V →ₗ[K] A) (a : A)
    (hΦ : ∀ l i x, l < S.L → 1 ≤ i → i < S.n l → q l (S.Φ l i x) = q l x)
    (hR : ∀ l x, l + 1 < S.L → q (l + 1) (S.R l x) = q l x)
    (hI : ∀ l x, l + 1 < S.L → q l (S.I l x) = q (l + 1) x) (cyc : Cycle) (m : Nat) (s : GState V)
    (hs : ∀ l, l < S.L → q l (s.u l 0) = a) (hg : ∀ l i, s.g l i = 0) :
    ∀ i, i < S.n 0 → q 0 ((iterates S S.forwardSolve cyc (m + 1)
      (S.nestedIteration S.forwardSolve s)).u 0 i) = a :=
  (respects_conserved q a hΦ hR hI).iterates_rel h
    ((respects_conserved q a hΦ hR hI).coarse_forward h) cyc m
    (s' := S.nestedIteration S.forwardSolve s)
    ((respects_conserved q a hΦ hR hI).nested_rel h (s' := s)
      (fun l x _ hl e => (hI l x hl).trans e) hs
      (fun l _ _ i _ _ => by simp only [hg, map_zero]))

/-- C74.  A linear subspace that every step and transfer maps into itself contains all iterates whose
initial values at the coarse points lie in it (symmetric data stay symmetric, boundary zeros stay
zero). -/
theorem C74_subspace (h : S.WF) (W : Nat → Submodule K V)
    (hΦ : ∀ l i x, l < S.L → 1 ≤ i → i < S.n l → x ∈ W l → S.Φ l i x ∈ W l)
    (hR : ∀ l x, l + 1 < S.L → x ∈ W l → S.R l x ∈ W (l + 1))
    (hI : ∀ l x, l + 1 < S.L → x ∈ W (l + 1) → S.I l x ∈ W l) (cyc : Cycle) (m : Nat) (s : GState V)
    (hs : ∀ i, i ∈ S.C 0 → s.u 0 i ∈ W 0) :
    ∀ i, i < S.n 0 → (iterates S S.forwardSolve cyc (m + 1) s).u 0 i ∈ W 0 := by
  have c : Respects S S (fun l x (_ : V) => x ∈ W l) (fun l x (_ : V) => x ∈ W l)
      (fun l x (_ : V) => x ∈ W l) :=
    { L := rfl, n := rfl, C := rfl, F := rfl, cf := rfl
      step := fun l i x _ hl h1 hi e => hΦ l i x hl h1 hi e
      relax := fun l x _ y _ _ ex ey =>
        (W l).add_mem ((W l).smul_mem _ ex) ((W l).smul_mem _ ey)
      dif := fun l x _ y _ ex ey => (W l).sub_mem ex ey
      difAdd := fun l x _ y _ ex ey => (W l).add_mem ex ey
      addDif := fun l x _ y _ ex ey => (W l).add_mem ex ey
      difSub := fun l x _ y _ ex ey => (W l).sub_mem ex ey
      subAdd := fun l x _ y _ ex ey => (W l).add_mem ex ey
      restrict := fun l x _ hl e => hR l x hl e
      restrictDif := fun l x _ hl e => hR l x hl e
      interpDif := fun l x _ hl e => hI l x hl e }
  exact c.iterates_rel h (c.coarse_forward h) cyc m (s' := s) hs

end

/-! ## The hypotheses are met -/

/-- A nonlinear exchange between two compartments, with the sum conserved, on the three-level grids of
`exCfg`; the coarse grids use a different exchange. -/
def exMass : Cfg (Int × Int) Int Nat Int where
  ts := exGrid
  step := fun l x t0 t1 =>
    let f : Int := x.1 * x.2 * ((t1 : Int) - (t0 : Int)) + l
    (x.1 - f, x.2 + f)
  R := fun _ x => x
  I := fun _ x => x
  cf := fun _ => 1
  w := 3
  start := fun _ => (1, 2)
  zero := fun _ => 0
  guess := fun _ => 0
  cyc := Sys.Cycle.F
  nested := true
  maxIter := 5
  convCrit := 0
  norm := fun x => |x.1|
  tnorm := fun xs => xs.sum
  ltTol := fun x => decide (x < 1)
  outLvl := 2
  ord := fun _ _ xs => xs
  P := 1
  instr := false

/-- Total mass. -/
def exTotal : (Int × Int) →ₗ[Int] Int := LinearMap.fst Int Int Int + LinearMap.snd Int Int Int

example (m : Nat) (s : GState (Int × Int)) (hs : ∀ l, l < 3 → s.u l 0 = (1, 2))
    (hg : ∀ l i, s.g l i = 0) :=
  C74_conserved_nested (exMass.sys_wf exGrid_valid) (fun _ => exTotal) 3
    (fun l i x _ _ _ => by
      change (x.1 - _) + (x.2 + _) = x.1 + x.2
      ring)
    (fun _ _ _ => rfl) (fun _ _ _ => rfl) Cycle.F m s
    (fun l hl => by rw [hs l hl]; rfl) hg

/-- Exchanging the two compartments: the map `(a, b) ↦ (b, a)` carries the system to its mirror image. -/
def exMirror : Cfg (Int × Int) Int Nat Int :=
  { exMass with step := fun l x t0 t1 => Prod.swap (exMass.step l (Prod.swap x) t0 t1) }

example : Intertwines exMass.sys exMirror.sys
    (fun _ => (AddMonoidHom.snd Int Int).prod (AddMonoidHom.fst Int Int)) where
  L := rfl
  n := rfl
  C := rfl
  F := rfl
  cf := rfl
  step := fun _ _ _ _ _ _ => rfl
  relax := fun _ _ _ _ => rfl
  restrict := fun _ _ _ => rfl
  interp := fun _ _ _ => rfl

end Pymgrit
