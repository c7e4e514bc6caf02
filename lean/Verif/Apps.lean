import Verif.Linear
import Mathlib.Data.Matrix.Mul
import Mathlib.LinearAlgebra.Matrix.Kronecker

/-!
# The shipped applications

Model of the time integrators under `/repo/src/pymgrit/{dahlquist,brusselator,heat,advection,
allen_cahn}` in exact arithmetic over a field (floating-point rounding is not modelled).  `spsolve` is
the relation `Lin.Solves`; a step of an implicit method is a relation between the start vector and the
result.  Spatial arrays are functions on `Fin n`; two-dimensional arrays of shape `(nx, ny)` are
functions `Nat → Nat → K`, and `flatten`/`reshape` (row-major) is the index `i * ny + j`.
-/

namespace Pymgrit.Apps
open Matrix Lin

variable {K : Type} [Field K]

/-! ## Dahlquist -/

/-- Methods accepted by the constructor (dahlquist.py:81-86). -/
inductive Method | BE | FE | TR | MR
  deriving DecidableEq, Repr

/-- The check of the method name in the constructor (dahlquist.py:81-86); `none` is the raised
exception. -/
def parseMethod (s : String) : Option Method :=
  if s = "BE" then some .BE else if s = "FE" then some .FE
  else if s = "TR" then some .TR else if s = "MR" then some .MR else none

/-- `Dahlquist.step` (dahlquist.py:88-111).  `lam` is `self.lambda_value`. -/
def dahlquist (m : Method) (lam u t0 t1 : K) : K :=
  let z := (t1 - t0) * lam
  match m with
  | .BE => 1 / (1 - z) * u
  | .FE => (1 + z) * u
  | .TR => (1 + z / 2) / (1 - z / 2) * u
  | .MR =>
    let k1 := -1 / (1 - z / 2) * u
    u + (t1 - t0) * k1

/-! ## Brusselator -/

/-- `brusselator(t, y)` (brusselator.py:68-82). -/
def brusselator (_t : K) (y : K × K) : K × K :=
  let a : K := 1
  let b : K := 3
  (a + y.1 ^ 2 * y.2 - (b + 1) * y.1, b * y.1 - y.1 ^ 2 * y.2)

/-- `Brusselator.step` (brusselator.py:105-132): classical Runge-Kutta; arrays of length two are
pairs. -/
def brusselatorStep (u : K × K) (t0 t1 : K) : K × K :=
  let dt := t1 - t0
  let k1 := brusselator t0 u
  let k2 := brusselator (t0 + dt / 2) (u.1 + dt / 2 * k1.1, u.2 + dt / 2 * k1.2)
  let k3 := brusselator (t0 + dt / 2) (u.1 + dt / 2 * k2.1, u.2 + dt / 2 * k2.2)
  let k4 := brusselator (t0 + dt) (u.1 + dt * k3.1, u.2 + dt * k3.2)
  (u.1 + dt / 6 * (k1.1 + 2 * k2.1 + 2 * k3.1 + k4.1),
   u.2 + dt / 6 * (k1.2 + 2 * k2.2 + 2 * k3.2 + k4.2))

/-! ## One-dimensional heat equation -/

/-- `Heat1D.compute_matrix` (heat_1d.py:177-196; the same code in heat_1d_2pts_bdf1.py:69-88 and
heat_1d_2pts_bdf2.py:71-90); `n` is `self.nx`, the number of interior points. -/
def heatMatrix (n : Nat) (a dx : K) : Matrix (Fin n) (Fin n) K :=
  let fac := a / dx ^ 2
  diags n [(fun _ => 1 * 2 * fac, 0), (fun _ => 1 * -fac, -1), (fun _ => 1 * -fac, 1)]

/-- `Heat1D.step` (heat_1d.py:198-217): `x` is the returned vector.  `rhs t` is
`self.rhs(self.x, t)`. -/
def heat1dStep {n : Nat} (a dx : K) (rhs : K → Fin n → K) (u : Fin n → K) (t0 t1 : K)
    (x : Fin n → K) : Prop :=
  Solves ((t1 - t0) • heatMatrix n a dx + 1) (u + (t1 - t0) • rhs t1) x

/-- `Heat1DBDF1.step` (heat_1d_2pts_bdf1.py:90-117): the pair `(first, second)` with spacing `dtau`
goes to the pair `(x1, x2)`. -/
def bdf1Step {n : Nat} (a dx : K) (rhs : K → Fin n → K) (dtau : K) (u : (Fin n → K) × (Fin n → K))
    (t0 t1 : K) (x : (Fin n → K) × (Fin n → K)) : Prop :=
  Solves ((t1 - t0 - dtau) • heatMatrix n a dx + 1) (u.2 + (t1 - t0 - dtau) • rhs t1) x.1 ∧
  Solves (dtau • heatMatrix n a dx + 1) (x.1 + dtau • rhs (t1 + dtau)) x.2

/-- Start pair of `Heat1DBDF1` (heat_1d_2pts_bdf1.py:61-67); `t0` is `self.t[0]`. -/
def bdf1Start {n : Nat} (a dx : K) (rhs : K → Fin n → K) (dtau t0 : K) (init : Fin n → K)
    (x : (Fin n → K) × (Fin n → K)) : Prop :=
  x.1 = init ∧ Solves (dtau • heatMatrix n a dx + 1) (init + dtau • rhs (t0 + dtau)) x.2

/-- One variable-step BDF2 solve of `Heat1DBDF2.step` (heat_1d_2pts_bdf2.py:113-122, 125-133) with
spatial operator `A`, source `f` at the new time, the two previous values and the two last spacings. -/
def bdf2Solve {n : Nat} (A : Matrix (Fin n) (Fin n) K) (f first second : Fin n → K)
    (tau_i tau_im1 : K) (x : Fin n → K) : Prop :=
  let r := tau_i / tau_im1
  let coeffm2 := r ^ 2 / (tau_i * (1 + r))
  let coeffm1 := (1 + r) / tau_i
  let coeff := (1 + 2 * r) / (tau_i * (1 + r))
  Solves (A + coeff • (1 : Matrix (Fin n) (Fin n) K)) (f - coeffm2 • first + coeffm1 • second) x

/-- `Heat1DBDF2.step` (heat_1d_2pts_bdf2.py:92-138). -/
def bdf2Step {n : Nat} (a dx : K) (rhs : K → Fin n → K) (dtau : K) (u : (Fin n → K) × (Fin n → K))
    (t0 t1 : K) (x : (Fin n → K) × (Fin n → K)) : Prop :=
  bdf2Solve (heatMatrix n a dx) (rhs t1) u.1 u.2 (t1 - t0 - dtau) dtau x.1 ∧
  bdf2Solve (heatMatrix n a dx) (rhs (t1 + dtau)) u.2 x.1 dtau (t1 - t0 - dtau) x.2

/-- Start pair of `Heat1DBDF2` (heat_1d_2pts_bdf2.py:61-69): trapezoidal rule. -/
def bdf2Start {n : Nat} (a dx : K) (rhs : K → Fin n → K) (dtau t0 : K) (init : Fin n → K)
    (x : (Fin n → K) × (Fin n → K)) : Prop :=
  x.1 = init ∧
  Solves ((dtau / 2) • heatMatrix n a dx + 1)
    ((1 - (dtau / 2) • heatMatrix n a dx).mulVec init + (dtau / 2) • (rhs t0 + rhs (t0 + dtau))) x.2

/-! ## Advection -/

/-- `Advection1D.compute_matrix` (advection_1d.py:101-120); `n` is `self.nx`. -/
def advectionMatrix (n : Nat) (c dx : K) : Matrix (Fin n) (Fin n) K :=
  let fac := c / dx
  let m := diags n [(fun _ => 1 * fac, 0), (fun _ => 1 * -fac, -1)]
  fun i j => if (i : Nat) = 0 ∧ (j : Nat) = n - 1 then -fac else m i j

/-- `Advection1D.step` (advection_1d.py:129-143). -/
def advectionStep {n : Nat} (c dx : K) (u : Fin n → K) (t0 t1 : K) (x : Fin n → K) : Prop :=
  Solves ((t1 - t0) • advectionMatrix n c dx + 1) u x

/-! ## Two-dimensional heat equation -/

/-- `a[lo:] = 0` with step `s` (`a[lo::s] = 0`). -/
def zeroFrom (lo s : Nat) (d : Nat → K) : Nat → K :=
  fun i => if lo ≤ i ∧ (i - lo) % s = 0 then 0 else d i

/-- `a[:hi] = 0`. -/
def zeroTo (hi : Nat) (d : Nat → K) : Nat → K := fun i => if i < hi then 0 else d i

/-- `a[-k:] = 0` for an array of length `len` and `k > 0`. -/
def zeroLast (len k : Nat) (d : Nat → K) : Nat → K := fun i => if len - k ≤ i then 0 else d i

/-- `Heat2D.compute_matrix` (heat_2d.py:250-287).  A chained assignment `a[s] = a[t] = 0` assigns to
`a[s]` first; the order does not matter here. -/
def heat2dMatrix (nx ny : Nat) (a dx dy : K) : Matrix (Fin (nx * ny)) (Fin (nx * ny)) K :=
  let fx := a / dx ^ 2
  let fy := a / dy ^ 2
  let n := nx * ny
  let main := zeroFrom (2 * ny - 1) ny (zeroFrom ny ny
    (zeroLast n ny (zeroTo ny fun _ => 1 * (2 * (fx + fy)))))
  let upper := zeroFrom (2 * ny - 1) ny (zeroFrom ny ny
    (zeroLast (n - 1) ny (zeroTo ny fun _ => 1 * -fy)))
  let lower := zeroFrom (2 * ny - 2) ny (zeroFrom (ny - 1) ny
    (zeroLast (n - 1) ny (zeroTo (ny - 1) fun _ => 1 * -fy)))
  let upper2 := zeroFrom (2 * ny - 1) ny (zeroFrom ny ny (zeroTo ny fun _ => 1 * -fx))
  let lower2 := zeroFrom (ny - 1) ny (zeroFrom 0 ny (zeroLast (n - ny) ny fun _ => 1 * -fx))
  diags n [(main, 0), (lower, -1), (upper, 1), (lower2, -(ny : Int)), (upper2, (ny : Int))]

/-- Data of a `Heat2D` problem (heat_2d.py:147-248).  The boundary functions are given by their values
at the grid points (`bc_left(self.x)[i]`, ...; a scalar is broadcast), `rhs t i j` is
`self.rhs(x[i], y[j], t)`, `theta` is 1 (BE), 0 (FE) or 1/2 (CN). -/
structure Heat2D (K : Type) where
  nx : Nat
  ny : Nat
  a : K
  dx : K
  dy : K
  theta : K
  rhs : K → Nat → Nat → K
  left : Nat → K
  right : Nat → K
  bottom : Nat → K
  top : Nat → K

namespace Heat2D
variable (P : Heat2D K)

/-- `self.space_disc`. -/
def mat : Matrix (Fin (P.nx * P.ny)) (Fin (P.nx * P.ny)) K := heat2dMatrix P.nx P.ny P.a P.dx P.dy

/-- `array.flatten()`. -/
def flat (v : Nat → Nat → K) : Fin (P.nx * P.ny) → K := fun k => v (k / P.ny) (k % P.ny)

/-- `array.reshape(nx, ny)`; zero outside the array. -/
def shape (v : Fin (P.nx * P.ny) → K) : Nat → Nat → K :=
  fun i j => if h : i < P.nx ∧ j < P.ny then v ⟨i * P.ny + j, by
    have h1 := h.1; have h2 := h.2
    calc i * P.ny + j < i * P.ny + P.ny := by omega
      _ = (i + 1) * P.ny := by ring
      _ ≤ P.nx * P.ny := Nat.mul_le_mul_right _ h1⟩ else 0

/-- The slice `[1:-1, 1:-1]`. -/
def inner (i j : Nat) : Prop := 1 ≤ i ∧ i + 1 < P.nx ∧ 1 ≤ j ∧ j + 1 < P.ny

instance (i j : Nat) : Decidable (P.inner i j) := by unfold inner; infer_instance

/-- The four assignments of the boundary values (heat_2d.py:244-247, 316-319, 347-350), in this
order. -/
def setBC (b : Nat → Nat → K) : Nat → Nat → K := fun i j =>
  if i = 0 then P.top j
  else if i = P.nx - 1 then P.bottom j
  else if j = P.ny - 1 then P.right i
  else if j = 0 then P.left i
  else b i j

variable [DecidableEq K]

/-- `Heat2D.compute_rhs` (heat_2d.py:289-320). -/
def computeRhs (u : Nat → Nat → K) (t0 t1 : K) : Fin (P.nx * P.ny) → K :=
  let b : Nat → Nat → K :=
    if P.theta = 1 then
      fun i j => if P.inner i j then u i j + (t1 - t0) * P.rhs t1 i j else 0
    else
      let tmp := (1 - (P.theta * (t1 - t0)) • P.mat).mulVec (P.flat u)
      fun i j => if P.inner i j then
          P.shape tmp i j + (P.theta * (t1 - t0) * P.rhs t1 i j
            + (1 - P.theta) * (t1 - t0) * P.rhs t0 i j)
        else P.shape tmp i j
  P.flat (P.setBC b)

/-- `Heat2D.step` (heat_2d.py:322-366); `x` is the returned array. -/
def step (u : Nat → Nat → K) (t0 t1 : K) (x : Nat → Nat → K) : Prop :=
  if P.theta = 0 then
    let new := P.setBC fun _ _ => 0
    let tmp := (1 - (t1 - t0) • P.mat).mulVec (P.flat u)
    let new : Nat → Nat → K := fun i j => new i j + P.shape tmp i j
    x = fun i j => if P.inner i j then new i j + (t1 - t0) * P.rhs t0 i j else new i j
  else
    ∃ y, Solves (((t1 - t0) * P.theta) • P.mat + 1) (P.computeRhs u t0 t1) y ∧ x = P.shape y

/-- Initial value (heat_2d.py:241-248). -/
def start (init : Nat → Nat → K) : Nat → Nat → K := P.setBC init

end Heat2D

/-! ## Allen-Cahn -/

/-- The periodic one-dimensional stencil of `AllenCahn.compute_matrix` (allen_cahn.py:178-185):
`dstencil = [1, -2, 1, 1, 1]`, `doffsets = [nx - 1, 0, 1, -1, 1 - nx]`; scalar diagonals are
broadcast.  For `nx ≤ 2` two offsets coincide and SciPy raises. -/
def periodic1 (n : Nat) : Matrix (Fin n) (Fin n) K :=
  diags n [(fun _ => 1, (n : Int) - 1), (fun _ => -2, 0), (fun _ => 1, 1), (fun _ => 1, 0 - 1),
    (fun _ => 1, 1 - (n : Int))]

/-- `AllenCahn.compute_matrix` (allen_cahn.py:172-189).  The row-major flattening of the code is the
pair index of the Kronecker product. -/
def allenCahnMatrix (n : Nat) (dx : K) : Matrix (Fin n × Fin n) (Fin n × Fin n) K :=
  (1 / dx ^ 2) • (kroneckerMap (· * ·) (periodic1 n) (1 : Matrix (Fin n) (Fin n) K)
    + kroneckerMap (· * ·) (1 : Matrix (Fin n) (Fin n) K) (periodic1 n))

/-- Parameters of `AllenCahn` used by `step` (allen_cahn.py:145-166); `dx` is `1 / nx`. -/
structure AllenCahn (K : Type) where
  nx : Nat
  dx : K
  nu : Nat
  eps : K
  maxiter : Int
  tol : K

/-- `'IMPL'`, `'IMEX'` and `'CN'` (allen_cahn.py:159). -/
inductive ACMethod | IMPL | IMEX | CN
  deriving DecidableEq, Repr

namespace AllenCahn
variable (P : AllenCahn K)

/-- Flattened arrays of the problem. -/
abbrev Vec (K : Type) (P : AllenCahn K) : Type := Fin P.nx × Fin P.nx → K

/-- `self.space_disc`. -/
def mat : Matrix (Fin P.nx × Fin P.nx) (Fin P.nx × Fin P.nx) K := allenCahnMatrix P.nx P.dx

/-- `space_disc.dot(v) + 1/eps^2 * v * (1 - v**nu)` (allen_cahn.py:214, 221). -/
def force (v : P.Vec) : P.Vec :=
  P.mat.mulVec v + fun i => 1 / P.eps ^ 2 * v i * (1 - v i ^ P.nu)

/-- Right-hand side and factor of the nonlinear system (allen_cahn.py:211-217). -/
def system (m : ACMethod) (old : P.Vec) (t0 t1 : K) : K × P.Vec :=
  if m = .CN then ((t1 - t0) / 2, old + ((t1 - t0) / 2) • P.force old)
  else (t1 - t0, old)

/-- `g` (allen_cahn.py:221). -/
def residual (fac : K) (rhs new : P.Vec) : P.Vec := new - fac • P.force new - rhs

/-- `dg` (allen_cahn.py:224-225). -/
def jacobian (fac : K) (new : P.Vec) : Matrix (Fin P.nx × Fin P.nx) (Fin P.nx × Fin P.nx) K :=
  1 - fac • (P.mat + (1 / P.eps ^ 2) •
    Matrix.diagonal fun i => 1 - ((P.nu : K) + 1) * new i ^ P.nu)

variable [LinearOrder K]

/-- `np.linalg.norm(g, np.inf) < tol`: all entries are below the tolerance in absolute value (the
arrays of the application are not empty). -/
def small (g : P.Vec) : Prop := ∀ i, |g i| < P.tol

instance (g : P.Vec) : Decidable (P.small g) := by unfold small; infer_instance

/-- The loop `while 0 < self.newton_maxiter` (allen_cahn.py:219-227), `solve` being `spsolve`.
`fuel` bounds the number of passes; `none`: the loop is still running.  The second component is the
counter `n` of Newton updates, which the code increments but never reads. -/
def newton (solve : Matrix (Fin P.nx × Fin P.nx) (Fin P.nx × Fin P.nx) K → P.Vec → P.Vec)
    (fac : K) (rhs : P.Vec) : Nat → P.Vec × Nat → Option (P.Vec × Nat)
  | 0, _ => none
  | fuel + 1, (new, n) =>
    if 0 < P.maxiter then
      if P.small (P.residual fac rhs new) then some (new, n)
      else newton solve fac rhs fuel
        (new - solve (P.jacobian fac new) (P.residual fac rhs new), n + 1)
    else some (new, n)

/-- `AllenCahn.step` (allen_cahn.py:191-229) run for at most `fuel` passes of the Newton loop. -/
def step (solve : Matrix (Fin P.nx × Fin P.nx) (Fin P.nx × Fin P.nx) K → P.Vec → P.Vec)
    (m : ACMethod) (fuel : Nat) (u : P.Vec) (t0 t1 : K) : Option P.Vec :=
  if m = .IMEX then
    some (solve (1 - (t1 - t0) • P.mat)
      (u + (t1 - t0) • fun i => 1 / P.eps ^ 2 * u i * (1 - u i ^ P.nu)))
  else
    (P.newton solve (P.system m u t0 t1).1 (P.system m u t0 t1).2 fuel (u, 0)).map Prod.fst

end AllenCahn
end Pymgrit.Apps
