import Mathlib.Data.Real.Sqrt
import Mathlib.Data.Fintype.BigOperators
import Mathlib.Algebra.BigOperators.Field

/-!
# Model of `Diffusion2D` (`/repo/src/pymgrit/firedrake/diffusion_2d_firedrake.py`)

Piecewise linear discontinuous elements on a triangular mesh with the interior penalty method.  Firedrake assembles the
forms with quadrature that is exact for these polynomials; the model contains the exact integrals.  The linear solver
(`NonlinearVariationalSolver` with its default parameters) is an exact solver, a relation between right-hand side and
solution.
-/

namespace Pymgrit.Firedrake

/-- A triangular mesh: for every cell the coordinates of its three vertices, for every interior facet the two adjacent
cells (`true`: side `+`), the local numbers of its two end points seen from both sides, its length and the unit normal
out of side `+` (`FacetNormal`, diffusion_2d_firedrake.py:50).  Facets on the boundary do not occur in the form. -/
structure TriMesh (Cell Facet : Type) where
  x : Cell → Fin 3 → ℝ
  y : Cell → Fin 3 → ℝ
  side : Facet → Bool → Cell
  node : Facet → Bool → Bool → Fin 3
  len : Facet → ℝ
  nx : Facet → ℝ
  ny : Facet → ℝ

variable {Cell Facet : Type}

/-- `FunctionSpace(mesh, "DG", 1)` (diffusion_2d_firedrake.py:40): values at the vertices of every cell. -/
abbrev DG1 (Cell : Type) := Cell → Fin 3 → ℝ

namespace TriMesh
variable (M : TriMesh Cell Facet)

/-- Twice the signed area. -/
def det (c : Cell) : ℝ := (M.x c 1 - M.x c 0) * (M.y c 2 - M.y c 0) - (M.x c 2 - M.x c 0) * (M.y c 1 - M.y c 0)

noncomputable def area (c : Cell) : ℝ := |M.det c| / 2

/-- `grad` on a cell, first component. -/
noncomputable def gradX (u : DG1 Cell) (c : Cell) : ℝ :=
  ((u c 1 - u c 0) * (M.y c 2 - M.y c 0) - (u c 2 - u c 0) * (M.y c 1 - M.y c 0)) / M.det c

/-- `grad` on a cell, second component. -/
noncomputable def gradY (u : DG1 Cell) (c : Cell) : ℝ :=
  ((M.x c 1 - M.x c 0) * (u c 2 - u c 0) - (M.x c 2 - M.x c 0) * (u c 1 - u c 0)) / M.det c

/-- Normal component of `2 * avg(outer(phi, n))` at an end point of a facet: value on side `+` minus value on side `-`
(diffusion_2d_firedrake.py:56-58). -/
def jump (u : DG1 Cell) (f : Facet) (e : Bool) : ℝ :=
  u (M.side f true) (M.node f true e) - u (M.side f false) (M.node f false e)

/-- Normal component of `avg(grad(phi))` on a facet (diffusion_2d_firedrake.py:56-57). -/
noncomputable def flux (u : DG1 Cell) (f : Facet) : ℝ :=
  ((M.gradX u (M.side f true) + M.gradX u (M.side f false)) / 2) * M.nx f
    + ((M.gradY u (M.side f true) + M.gradY u (M.side f false)) / 2) * M.ny f

variable [Fintype Cell] [Fintype Facet]

/-- `inner(gamma, phi) * dx` (diffusion_2d_firedrake.py:53, 61). -/
noncomputable def mass (γ φ : DG1 Cell) : ℝ :=
  ∑ c, M.area c / 12 * ((∑ i, γ c i * φ c i) + (∑ i, γ c i) * ∑ i, φ c i)

/-- `inner(grad(gamma), grad(phi)) * dx` (diffusion_2d_firedrake.py:55). -/
noncomputable def gradForm (γ φ : DG1 Cell) : ℝ :=
  ∑ c, M.area c * (M.gradX γ c * M.gradX φ c + M.gradY γ c * M.gradY φ c)

/-- `inner(2 * avg(outer(phi, n)), avg(grad(gamma))) * dS` (diffusion_2d_firedrake.py:56): the flux is constant on a
facet, the jump linear. -/
noncomputable def fluxForm (γ φ : DG1 Cell) : ℝ :=
  ∑ f, M.len f * ((M.jump φ f false + M.jump φ f true) / 2) * M.flux γ f

/-- `inner(2 * avg(outer(phi, n)), 2 * avg(outer(gamma, n))) * dS` (diffusion_2d_firedrake.py:58). -/
noncomputable def jumpForm (γ φ : DG1 Cell) : ℝ :=
  ∑ f, M.len f / 6 * (2 * (M.jump γ f false * M.jump φ f false) + M.jump γ f false * M.jump φ f true
    + M.jump γ f true * M.jump φ f false + 2 * (M.jump γ f true * M.jump φ f true))

/-- The part of the form `a` with the factor `dt` (diffusion_2d_firedrake.py:54-59). -/
noncomputable def diffusion (kappa mu : ℝ) (γ φ : DG1 Cell) : ℝ :=
  kappa * M.gradForm γ φ - kappa * M.fluxForm γ φ - kappa * M.fluxForm φ γ + mu * (kappa * M.jumpForm γ φ)

/-- `Diffusion2D.step` (diffusion_2d_firedrake.py:81-99): the solution `u'` of `a(gamma, u') = (gamma, u)` for all test
functions `gamma` (diffusion_2d_firedrake.py:53-61). -/
def step (kappa mu : ℝ) (u : DG1 Cell) (t t' : ℝ) (u' : DG1 Cell) : Prop :=
  ∀ γ, M.mass γ u' + (t' - t) * M.diffusion kappa mu γ u' = M.mass γ u

/-- Triangles that are not degenerate, facets of positive length with unit normals. -/
structure Ok : Prop where
  det : ∀ c, M.det c ≠ 0
  len : ∀ f, 0 < M.len f
  unit : ∀ f, M.nx f ^ 2 + M.ny f ^ 2 = 1

end TriMesh

/-- `PeriodicSquareMesh(n, n, L)` with `h = L / n` (example_diffusion_2d_firedrake.py:30): every square is cut into a lower
(`false`) and an upper (`true`) triangle.  Coordinates are relative to the square.  Facets: `0` the diagonal of a
square, `1` the edge between a square and its right neighbour, `2` the edge between a square and its upper neighbour.
Which of the two diagonals is used does not matter by symmetry. -/
noncomputable def periodicSquare (n : Nat) [NeZero n] (h : ℝ) :
    TriMesh (Fin n × Fin n × Bool) (Fin n × Fin n × Fin 3) where
  x := fun c k => if c.2.2 then ![h, 0, h] k else ![0, h, 0] k
  y := fun c k => if c.2.2 then ![h, h, 0] k else ![0, 0, h] k
  side := fun f s => match f.2.2 with
    | 0 => (f.1, f.2.1, !s)
    | 1 => if s then (f.1, f.2.1, true) else (f.1 + 1, f.2.1, false)
    | 2 => if s then (f.1, f.2.1, true) else (f.1, f.2.1 + 1, false)
  node := fun f s e => match f.2.2 with
    | 0 => if s then (if e then 2 else 1) else (if e then 1 else 2)
    | 1 => if s then (if e then 0 else 2) else (if e then 2 else 0)
    | 2 => if s then (if e then 0 else 1) else (if e then 1 else 0)
  len := fun f => match f.2.2 with
    | 0 => √2 * h
    | 1 => h
    | 2 => h
  nx := fun f => match f.2.2 with
    | 0 => 1 / √2
    | 1 => 1
    | 2 => 0
  ny := fun f => match f.2.2 with
    | 0 => 1 / √2
    | 1 => 0
    | 2 => 1

end Pymgrit.Firedrake
