# Formal model of PyMGRIT in Lean 4

The subject is the Python package in `/repo` (PyMGRIT, MGRIT solver in FAS
formulation with MPI parallelism in time).  The code was read as text; nothing
was executed.  `properties.jsonl` lists the properties, `MANIFEST.json` maps
them to theorems.

## 1. Architecture of the model

| Module (under `lean/Verif/`) | Models | Style |
|---|---|---|
| `Split`      | `Mgrit.split_into`, `split_points` | functions on `Nat`/`List` |
| `Grid`       | `Mgrit.setup_points_and_comm_info`: owned points, C/F points, ghost points, flags, partners, F-point order | functions on `List`s of times over an arbitrary linear order |
| `Net`        | MPI point-to-point semantics: non-blocking sends, blocking receives, FIFO per (source, destination, tag), wait-for-all | small-step semantics of a finite family of processes |
| `Proc`       | one MPI process running `f_relax`, `c_relax`, `fas_residual`, `forward_solve`, `error_correction`, `iteration`, `nested_iteration`, `compute_residual`, `compute_jump`, `convergence_criterion`, `solve`, `clean_up` | programs in a free monad with send/receive nodes |
| `Refs`       | `Proc` once more, with vectors as objects: which lists share objects, `clone`, `unpack` into the ghost object, functions of the user that return or change their argument | programs on a heap |
| `Seq`        | the same sweeps over global indices, without processes (the specification the distributed program is compared with; with one process the program *is* the code) | pure functions on arrays `Nat -> V` |
| `Driver`     | `solve()` loop, output calls, history on one process | functions on a run state |
| `AtMgrit`    | `AtMgrit.forward_solve`, group communication | functions |
| `Setup`      | `simple_setup_problem`, `split_communicator`, `Application.__init__`, `log_info` | functions |
| `Construct`  | the checks of `Mgrit.__init__` in source order, and the exceptions of its loop over the levels | exceptions as values |
| `Vectors`    | the vector classes: objects with references to arrays | operations on a heap |
| `Machine`    | `VectorMachine`, `GridTransferMachine` | functions on lists |
| `Mesh`       | `helper.py`: reading of nodes and unknowns, region maps, interpolation weights, constructor of `GridTransferMachine` | functions on lists of split lines |
| `GetDP`      | `helper.py`: solution and result files; `InductionMachine.step`, `run_getdp` | functions on lists of split lines; the solver is an arbitrary function |
| `Linear`, `Apps` | `scipy.sparse.diags`/`spsolve`; steps and matrices of Dahlquist, Brusselator, Heat 1D (also BDF1, BDF2), Heat 2D, advection, Allen-Cahn | matrices over a field; a solve is a relation |
| `Orbit`      | `arenstorf` (right-hand side of the Arenstorf orbit) and the formula in its documentation | real functions |
| `Space`      | spatial meshes of the constructors; transfers of `examples/example_spatial_coarsening.py` | functions on lists over a field |
| `Plots`      | `mgrit_with_plots.py`: what is drawn (nodes and letters, boxes, ticks, points), and the exceptions | functions on lists |
| `Trace`, `Work` | the sweeps once more over arbitrary operations (logs of operations), and with a counter of the calls of `step()` | functions |
| `JlSolver` | `mgrit_machine.py`, `mgrit_machine_conv_jl.py` | functions returning the state and the exception raised |
| `Phase` | `allen_cahn.py`: initial value and radii | functions over ℝ |
| `Firedrake` | forms and step of `diffusion_2d_firedrake.py`, the periodic mesh of its example | values on piecewise linear functions on a triangular mesh |
| `GrayScott` | rest of `gray_scott_2d_petsc.py`: spacings, `initial_guess`, `compute_rhs_imex`, the three branches of `step` | solvers are relations between the arguments and a result |
| `Burgers` | form and step of `Burgers1D` in `burgers_firedrake.py` | integrals of piecewise quadratic functions over ℝ |
| `Shipped` | right-hand sides, initial values and stated solutions of the heat-equation scripts in `examples` | functions over ℝ |
| `PetscHeat` | constructor, `rhs`, `u_exact`, `get_id`, `compute_rhs`, `step` of `HeatPetsc`; `GridTransferPetsc` | `Step` is a relation; the operator cache as in `Petsc`; one process in space; PETSc's transfer matrices by their documentation |
| `Custom` | `MgritCustomized` of `examples/example_convergence_criterion.py` with the inherited constructor and `solve` | arrays of the run on one process; the criterion on any number of processes; vectors with at least one component |
| `Workflow` | the optimizer and its workers in `examples/optimize_geometry_im` | transition system |
| `Double` | `np.linspace`, `split_into` in double precision | rounding as a function on the rationals |
| `Ieee` | comparisons, sums and norms with NaN and infinities | doubles as a datatype; norms are relations |
| `Session` | programs that create and solve several solvers | scripts, compiled to the programs of `Proc` |
| `Elements` | `helper.py`: `get_elements`, `check_version`, arrays of lines and triangles; whole constructor of `GridTransferMachine` | functions on lists of split lines |
| `Shell` | commands of `run_getdp`, `os.path`, word splitting of the shell | functions on lists of characters |
| `Region` | `AtMgritCustomized.convergence_criterion` and gathered values (optimization_workflow.py) | functions on lists |
| `Memory` | the sweeps, `compute_residual`, `solve` and the constructor for objects whose `step()` depends on earlier calls | functions on arrays and a memory; one time process |
| `Depth` | `__add__`, `__sub__`, `__mul__`, `norm` of a vector class that carries a number, `step()` and the transfers for it | a configuration of the same model; one number per vector |
| `MachineGrid` | the time grids built by `run_*` of examples/induction_machine/induction_machine.py (149-153 and repetitions) | double precision as in `Double`; the external solver only through a composition property |
| `PropsRedundant`, `PropsRedundant2`, `PropsRedundant3`, `PropsRedundant4`, `PropsRedundant5` | no code of their own: `Copy`, `Without` and `cut` relate two solvers of the model | PETSc vectors and solvers of the example are not modelled, only its hierarchy |
| `Petsc`      | operators, residual, Jacobian and operator cache of the PETSc applications | rows as lists of entries |

Lemmas are in `SeqLemmas`, `NetLemmas`, `GridLemmas`, `GridSpec`, `Exact`, `Hier`, `Visit`, `SweepFacts`,
`DriverFacts`, `Stale`, `Dist0`–`Dist3` (the distributed program refines `Seq`/`Driver`), `RunNet`, `RunStuck`,
`Log` (executions with event logs, safety monitors), `Loc0`–`Loc9` (local criterion: event traces, communication slots, rounds, clean-up, complete runs),
`PySetFacts`, `TwoLevel` (closed form of a two-level iteration), `Param` (relations preserved by cycles),
`Crash`, `Crash2` (hostile network, counting of barriers), `Raise` (exceptions of NumPy), `Messages` (counting of messages), `Multi` (contraction of multilevel iterations), `Contract` (backward Euler on neighbouring levels), `Inexact` (perturbed steps), `Rounding` (rounded operations), `Forms` (simultaneous diagonalisation of two forms), `Brouwer`, `Box` (zeros of vector fields on balls and boxes), `PlotsLemmas`, `RefsFacts`, `RefsSim` (objects refine values);
property theorems are in `Props*`, `Floats`, `EndToEnd`, `EndToEnd2`, `Causal`, `LocalCex`; small specifications in `Spec`;
configurations used in examples in `Examples`.

Values: the vector type `V` is arbitrary.  Statements comparing executions
(process-count independence, schedule independence, order independence) assume
**no algebraic law** of the vector operations, so they also cover floating
point.  Statements about the algorithm's mathematics (fixed point, exactness)
assume exact arithmetic (`V` an additive group / module).  All levels share one
type `V`; level-dependent spatial sizes are covered by taking `V` to be the
product of the level spaces.

Times: an arbitrary linear order; grids are lists.

MPI: `isend` never blocks; `recv(source, tag)` blocks until the first message
in the FIFO of (source, self, tag) is available; `Waitall` is modelled in the
strictest way (waits until all sent messages are received).  `gather`/`bcast`
are modelled by messages to/from the root in a separate tag space.

## 2. Plan per property

* C01 block distribution: `splitInto` as a list; sum, balance, contiguity by list induction.
* C02 coarse ownership: the owned indices of rank r on level l form the interval [lo l r, lo l (r+1)); monotone `lo` from sortedness of times.
* C03 partners: `searchsorted` on block end times equals the owner; partner relation symmetric.
* C04 send/receive matching: flags rewritten in terms of the interval and the C-set; case analysis.
* C05 C/F partition and position pairing: the k-th local C-point and k-th local coarse point have equal times.
* C06 F-order, C67: set iteration order is a parameter of the run model; `C06_iff` is the exact condition on it.  `PySet` models CPython's hash tables (probe loop, resizing, difference): contents (C67), keys at their residue unless two collide, hence rotations of the ascending order for dense sets; refuted by a concrete hierarchy.
* C07, C08, C09: postconditions of the sweeps by induction over the index list.
* C10 one-level solve: composition of C09 and the residual.
* C11 initial value: invariant through all operations, induction over levels and iterations.
* C12 fixed point: induction over levels, generalised to an arbitrary right-hand side.
* C13 zero residual iff sequential solution.
* C14 prefix exactness: induction over levels with the prefix length as parameter.
* C15 idempotence of F-relaxation.
* C16 residual at F-points vanishes, norms of lists with zeros.
* C17–C19 driver: model of the loop with an event log.
* C20–C23: network semantics; confluence theorem for deterministic processes; canonical rank-ordered schedule realises the sequential sweeps.
  For process boundaries between two C-points of the finest level (`Stale`, `PropsStale`): the ghost value is never written, so the program equals that of the problem `frozen E` whose steps there start from the initial guess.
* C24–C25 constructor decision logic: `Except`-valued function in source order.
* C26–C27 `simple_setup_problem`.
* C28–C29 communicator split; collective over the world communicator.
* C30–C33 local criterion: C30 and C31 by a monitor automaton over the event log of an arbitrary execution; concrete counterexamples (executed by a verified scheduler) where the code deviates; C32, C64–C66 by constructing one complete execution in rank order (each process: what it receives, what its slots send, in which iteration it stops) and transferring it to every execution by determinacy (`PropsLocal2`).
* C68–C72 two-level closed form and error bounds: `TwoLevel` computes the coarse-point values after one iteration; C68, C69 and the bound C72 follow by induction over coarse points and iterations; C71 by induction over points from the F-relaxed iterate (`Verif.PropsTol` for the values of `solve()` and the heat equation).
* C82 Heat 2D scheme: rows of the linear system at interior and boundary points, both directions; exactness follows with the uniqueness of C59.
* C86 Allen-Cahn schemes: stencil of C60 in the exit condition of the Newton loop; the Newton matrix by expanding powers.
* C87 objects as values: a simulation between `Refs` and `Proc`, operation by operation; the invariant says that the ghost objects, the only ones unpacked into, are shared with no other entry.
* C88–C90, C93 convergence of shipped applications: the error of a level is measured against the exact solution of the equations of that level. Relaxation does not increase it (weights in [0, 1]); the coarse equations have a solution within κ times the fine error; induction over the levels gives the rate (`Verif.Multi`). κ bounds (fine − coarse factor)/(1 − coarse factor) on a coarse interval; for backward Euler κ = 1/3 for all step sizes (`euler_factors`, by monotonicity in logarithms). The heat equations by coordinates with respect to eigenvectors of the (interior) matrix, whose eigenvalues are nonnegative by diagonal dominance; boundary values because a step sets them (κ = 0).
* C94 pairs of time points: seminorm = maximum over the two members of the pair. Over a coarse interval with m fine steps the first member is damped by 2m − 1 backward Euler steps whose sizes sum up to the interval minus dtau, which is the coarse step; so `euler_factors` gives κ = 1/3 again.
* C95 finite termination with lossy transfers: the exact prefix grows by FCF-relaxation alone and is kept by the coarse-grid correction; without FCF-relaxation each C-point is only changed by adding interpolated values.
* C96 jump of zero: equal values at the C-points give equal next iterates (relations of `Param` with equality), so the iteration is stationary; with C14 or C95 it is solved. Refutation by a run whose residual the restriction maps to zero.
* C97 meaning of the tolerance: the error before the last iteration is at most jump + q·error, so the error after it is at most q/(1−q)·jump (`jump_err`); coordinatewise in an eigenbasis for symmetric matrices. The value recorded is the one of C17.
* C98 number of iterations: residual and jump are at most the sum of two errors (triangle inequality, steps nonexpansive), errors are at most q^m·D (C93), the norm in time at most β times its largest entry; with the stopping rule C17.
* C99 spatial coarsening: closed forms of the loops; the rest is algebra, and C95 for MGRIT.
* C100 meshes: closed form of `linspace`; refuted for Allen-Cahn for every number of points.
* C101 accuracy in space and time: Taylor bounds for differences (`Verif.Taylor`, by integrating derivative bounds) give the residual of a smooth solution in the implicit equations of a step; diagonal dominance of the matrices turns it into an error per step; sum over the steps.
* C102 Dahlquist accuracy: the same with the factors of the methods (absolute value at most one). Refuted for MR unless λ = −1: with λ = −2 it is backward Euler for λ = −1.
* C103 AT-MGRIT convergence: the recursion of C93 with a coarsest solver that leaves a part γ of the error; the window leaves β^(k−1) where β bounds the coarsest steps. Smallest eigenvalue of the heat matrix bounded below by a discrete parabola.
* C104 inexact steps: the induction of C93 for a system with perturbed steps, with errors measured against the unperturbed system (`Verif.Inexact`); each relaxation, residual and coarse solve adds a multiple of (number of points)·ε, summed as a geometric series over the iterations.
* C105 plots: the lists built by the plot functions are compared with logs of the operations (`Trace`), the points of `Grid` and the values of C17/C18.
* C106 number of steps: the sweeps with a counter compute the same values; the log of a cycle is turned into a weighted sum over its operations.
* C107 machine solvers: the overridden methods with their exceptions (`JlSolver`); the criterion is compared pointwise with the losses at the coarse points of the hierarchy, so it does not depend on the distribution.
* C108 Allen-Cahn bounds and energy: maximum principle at the point with the largest value; summation by parts for the gradient part, convexity (IMPL) or a second-order bound (IMEX) for the potential.
* C109 Allen-Cahn radii: grid points in a disc are counted by the area of the squares around them; symmetry by uniqueness of the implicit step.
* C110 times: positions of the points in the next finer grid determine owned points, flags and partners (closed forms of `GridSpec`), so the programs of two hierarchies with equal positions are equal.
* C111 longer runs: induction over the iterations of the shorter run; on several processes through C20.
* C112 order of times: the undocumented checks of C24 fail on process 0; binary search in a decreasing array; on one process the lists of local points do not depend on the order (C110).
* C91 Arenstorf orbit: derivative of the Jacobi integral along a curve, zero on solutions; mean value theorem.
* C92 superposition: addition as a map from pairs of problems to problems, by C73; the error equation as the sum of the exact solution (a fixed point, C12) and a homogeneous run.
* C73, C74 symmetries and conserved quantities: a relational argument over cycles (`Param`) with separate relations for values, differences and right-hand sides, instantiated with the graph of a map, a level set of a functional, a subspace.
* C113 exceptions of NumPy: `Raise` repeats the criterion and the end of `solve()` with the exceptions of `np.linalg.norm` and `np.max`.  No path through the program of a process without C-points returns, and the barrier (as in C76) keeps the others; with a global criterion the two programs are related by an invariant of the gathered messages.
* C114 number of messages: `Prog.Sent` follows all paths through the program of a process and numbers its messages of one kind; the sweeps are counted by recursion as the code is, closed forms by induction on the depth.  `Logged` transfers this to the executions with crashes.
* C115 rounded arithmetic: vectors of any type with any operations, `val` to real vectors; the induction of C93/C104 over the levels, with errors of every operation (add, subtract, weighted sum, step) and with bounds of the sizes of all intermediate values, since the errors are only bounded for operands in a range (`Verif.Rounding`).  `Fl rnd` rounds every operation of `VectorDahlquist`, of the weighted relaxation and of `Dahlquist.step`; arrays of such numbers for the heat equation.  `roundBits 53` is round-to-nearest of double precision.
* C116 Firedrake diffusion: a mesh is given by the vertices of its triangles and the facets between them, the forms of the code by their values on piecewise linear functions (`Verif.Firedrake`); a symmetric form is diagonal in coordinates in which the mass form is the sum of squares (`Verif.Forms`, spectral theorem), so a step damps every coordinate, and C93 applies to each.
* C117 Burgers' equation: functions by their nodal values, the form of the code with integrals over the cells.  The nonlinear term is a derivative, so it vanishes when tested with constants and with the solution.  Existence by Brouwer's theorem (not in Mathlib; proved in `Verif.Brouwer` after Milnor and Rogers): on a large sphere the residual does not point inwards.
* C118 implicit steps of Allen–Cahn and Gray–Scott: existence by the theorem of Poincaré and Miranda (`Verif.Box`, from `Verif.Brouwer` by smoothing and clipping): on the sides of a box the maximum principle gives the sign of the residual.  For Gray–Scott the reaction is cut off first and the balance of the amounts shows that the cut is not reached.  Uniqueness by comparing two solutions at the point of the largest difference.
* C119 Gray–Scott: maximum principle and summation over the periodic grid.
* C120 Newton's loop: the error of a pass satisfies `(d - fac lap) e' = k e²`-like equations with explicit coefficients; the maximum principle bounds `e'`, and the ratio of the coefficients is at most 3/4 for all values of the iterate.  The residual that ends the loop is bounded by the error.
* C121 BDF2 pairs: the two equations of a step are multiplied by the increments; a sum of squares in three variables, valid for ratios between 1/4 and 7, gives the energy estimate.  The error satisfies the same equations with the truncation error as source (third-order Taylor expansion), and a discrete Sobolev inequality bounds the values by the energy.
* C122 example scripts: the stated functions are differentiated by hand and put into C101 and C121; in two dimensions the constants of C101 are zero, so the discretization is exact.  For `solve()` the residuals at the C-points sum to a bound of the error because backward Euler does not increase distances (`Verif.PropsTol`, C71).
* C123 PETSc heat equation: maximum principle of the five-point operator (existence, uniqueness, boundary values); `sin sin` is an eigenvector of the assembled operator, so time stepping is a scalar recursion whose error is summed; for `mx = my` the factor is within `a (π f)⁴ dx² / 6` of `2 a (π f)²`, for `8k + 1` against `2k + 1` points it is at least `64 a > 2 a π²` and the error keeps a positive lower bound (induction on the time points).
* C124 PETSc transfers: the two matrices PETSc creates are modelled by their documented meaning (injection; mean of the surrounding coarse points); index arithmetic, addition theorems; C95 and C123 for `solve()`.
* C125 user-defined criterion: the class of the example script on top of the modelled solver, its criterion on any number of processes with the C-points of the grid model; the loop is unrolled to the iterates of `Mgrit`, the maximum is characterised by comparison with every positive number; finite termination (C95), jump of zero (C96) and the contraction argument of C97 give the consequences.
* C126 solution files: the writes of the output functions of the example scripts as a list of named files, any interleaving of the processes' calls (taken from the recorded calls of the modelled `solve()`), loading as concatenation in any order and stable sort; the result is identified with C19 and C20. When the files are there: counting the messages of the last barrier along the program (as C76), with what follows the barrier spelled out.
* C127 variables and vectors: programs with variables over the heap model of C42; the operators inherited from `Vector` return new objects; refinement to a store of values by induction on the program.
* C128 reported coarsening: the first gap and the comparison of all gaps with it, `np.isclose` over the rationals; equal spacing and the list of gaps determine each other, the order of the C-points is that of the coarse grid (C05), `simple_setup_problem` as in C26.
* C129 optimization workflow: transition system with the mesh on disk, one queue per broadcast root and process, the final `allgather` of a run as a barrier and an arbitrary adaptive optimizer; invariant relating rounds, queues and the point being evaluated; every step raises a counter that is bounded for the whole workflow.
* C130 time grids in double precision: rounding to nearest (53 bits, ties to even) as a computable function on the rationals, `np.linspace` and `split_into` with every operation rounded; scaling by powers of two commutes with rounding, relative error bounds give the order and the integer parts. The rounding function and `linspace` were compared with Python's floats on random inputs (a test, not a proof).
* C131 NaN and infinities: doubles as NaN, infinities and rational numbers with rounding to nearest (subnormal numbers, overflow), sums and sums of squares as relations that allow every order and fused operations, roots as neighbours of the exact root; by induction on the sums every entry is a number and at most the norm; then the stopping rule (C17), the equivalence with one process (C20) and the F-points (C07), going backwards from the C-points. The arithmetic of vectors is that of the application, constrained by `Checks` (proved for arrays: `array_checks`).
* C132 several solvers: `Script` is a program that creates solvers, calls their `solve()` and goes on depending on the returned history; its meaning on `P` processes is a sequence of the programs of C20 on shared channels, without separation in time. By induction over the script with the phase rule `Runs` (a phase can be followed by anything), then determinacy of the network (C21). For chains of solvers with local criteria: executions to the end can be followed by any continuation (`runs_of_steps`).
* C133 lines and triangles of a mesh: `Elements.lean` adds `get_elements`, `check_version` and the arrays of lines and triangles to the model of C79-C82, so that the constructor of `GridTransferMachine` is modelled as a whole. Files are described by their blocks (`EBlock`, `Format`); by induction over the blocks. `C133_returns_partial` and `C133_constructor` connect the constructor with `transfer`, which C79, C80 and C82 are about.
* C134 commands: the text of the two commands, `os.path.split`, `join` and `splitext`, and the splitting of the shell into words (blanks, both kinds of quotation marks, comments; no result for other special characters; reserved words as names of programs are not treated) as functions on characters. A piece of the command stands for words whatever follows (`Chunk`); pieces are put together by induction.
* C135 values and criterion of the geometry optimization: the blocks of the processes (C01) are put together by induction over the ranks; the region by C129; the criterion as a statement about all points of the region.
* C136 balance of the work: with uniform coarsening the first point of a process on a level is the block boundary of the finest level divided by the stride, rounded up; the rest is arithmetic of remainders, and numbers that differ by at most one lie next to their mean value.
* C137 steps with a memory: the sweeps are written once more with a memory that every call of `step()` reads and changes, in the order of the calls of the code. Every single operation is the operation of the memoryless model for some steps within `ε` of the ideal ones (other steps for every operation), so the estimates of C104 apply operation by operation; between two operations the F-points satisfy their equations up to `ε` only.
* C138 chains of dependent steps: the whole model, distributed programs included, is instantiated with vectors that carry a number. Upper bound: invariant `number ≤ A + intervals of the coarsest grid up to the point` for `u`, `v`, `g` of all levels, `A` growing by the run of F-points per F-sweep and by one per C-sweep and FAS residual; a sequential solve on the coarsest level keeps the invariant with the same `A`. Lower bound by induction through the last coarse-grid correction. C138_values: forgetting the numbers commutes with every operation.
* C139 time grids of the induction machine experiments: integers below `2 ^ 53` times a power of two are fixed by rounding, so every operation of `np.linspace` is exact under `Dyadic`; the sorted index list is identified with an explicit one (two sorted permutations are equal); nestedness is then divisibility of indices. The composition property of the external solver is a hypothesis (C139_values). C139_runs gives the hypotheses `Runs` and `Apart` of C138 for these hierarchies.
* C140 coarsest level repeating the level above: relation `Agree` between the states of the solver with and without the level (equal values, restricted values and right-hand sides on all other levels), preserved by every operation; the correction from the copy turns the relaxed values of the level above into those of its forward solve. Several processes: counterexample by execution.
* C75–C77 crashes and buffering: `Crash` adds to the network semantics processes that stop at any point, loss of their messages in transit and a `Waitall` that may complete at any time.  Every such execution is simulated by one without crashes, which is confluent (C75, C77); C76 counts the messages of the barriers (`Crash2`) along the program of each process.
* C78 calls of user functions: two configurations that agree on the intervals of the grids have the same program, by congruence through every sweep.
* C79–C81 meshes of the induction machine: the loops over unknowns fill arrays of known length, so the number of writes decides between the exact result and an `IndexError` (C79); the transfer data computed from the files are put through the model of `interpolation` (C80); C81 reads a rendered file back.
* C83, C84 files and steps of the induction machine: the reading loop by induction over the solutions in the file; the solver is a parameter.
* C85 quantities outside of the norm: visible parts survive relaxation, one CF-relaxation then makes all quantities exact, and the rest of the cycle keeps exact states (lemmas of C12); refuted by a run in the kernel.
* C34–C37 AT-MGRIT.
* C38 cycle structure: trace of the recursion.
* C39 nested iteration.
* C40 causality: non-interference, two-run induction.
* C41 grids without the initial time: concrete counterexample and the guard under which all other theorems are stated.
* C42–C44 vectors: heap model with array references; flattening; machine transfer.
* C45–C52 applications: algebra over a field; matrices as functions of indices.
* C53 application constructor; C54 logging; C55 index ranges; C56 repeated solve.
* C57 AT-MGRIT on several processes: the group communication as lists of source processes.
* C58 BDF1 pair = two Euler steps; C59 2D heat well-posedness by diagonal dominance; C60 Allen-Cahn stencil and stationary states.
* C61–C63 PETSc applications: cache as a fold over the calls, rows applied to grid functions, derivative as the linear part of a polynomial.

## 3. Trusted base

* Lean's kernel.  Axioms: at most `propext`, `Classical.choice`, `Quot.sound`; the exact set for each
  theorem of the manifest is listed in `AXIOMS.md` (generated with `collectAxioms`).  No own axioms, no
  `sorry`, no `native_decide`/`bv_decide`.  Concrete counterexamples are evaluated by the kernel
  (`decide +kernel`, `rfl`), not by compiled code.
* The reading of the Python source: each definition cites file and lines.  The link between the source
  text and the model is by reading only.
* Python semantics as used in the model: negative indices and slices, `range` of negative numbers,
  evaluation order, references to mutable arrays (`Vectors`).  CPython's iteration order of a set of
  integers is *not* assumed: it is a parameter (`ord`).  Only the `C06_python*` theorems and C67 refer to the
  hash tables of CPython 3.7+ (`PySet`, written from knowledge of `Objects/setobject.c`; compared on random
  inputs with the interpreter in the sandbox).
* Vectors as values in `Proc`: justified by C87 for functions of the user that leave their arguments as they
  are (read off for the shipped applications).  C87 does not cover a step of the finest level that returns its
  argument on several processes (no difference was found in 2160 runs; not proved).
* MPI semantics (`Net`): `isend` copies its data and never blocks (mpi4py pickles the object), FIFO per
  (source, destination, tag), `recv` blocks, `Waitall` is taken as strictly as possible (it waits for the
  receipt of everything sent).  `gather`, `bcast` and `barrier` are messages to and from the root.  Reading
  `Waitall` strictly makes termination theorems stronger; C77 drops this reading.  It is also used in the counterexamples of C32,
  where the code hangs because a receive or the following barrier is never served (see there).
* Exact arithmetic in the theorems of the applications and in the theorems on exactness; no arithmetic law
  in those comparing two executions, which therefore hold for doubles (`C20_float_partial`).  C104 allows
  inexact steps, C115 rounding errors in every operation, C130 and C131 are about doubles.  Otherwise floating-point rounding is not modelled.

## 4. Where the code and the property disagree

Each item is proved: there is a theorem with a concrete input, and a `_partial` theorem with the largest
class of inputs found for which the property holds.

| Property | Finding | Theorems |
|---|---|---|
| C06 | The order of F-points follows CPython's set iteration.  For irregular coarsening a point may be computed before its predecessor: ten points with coarse grid 0, 2, …, 7 give a wrong last value and a reported residual of zero, on one process.  Every uniform coarsening is safe. | `C06_python_counterexample`, `C06_python_wrong_solution`, `C06_python_uniform`; exact condition `C06_iff` |
| C18, C56 | `solve()` returns `self.conv[self.conv != 0]`: an iteration with value exactly 0 (the converged case) is missing, and a second `solve()` with fewer iterations returns entries of the first. | `C18_zero_dropped`, `C56_stale_history` |
| C20 | If the last point of a process and the first point of the next are both C-points of a level, no message is sent and the ghost value is stale: the solution is silently wrong. | `C20_adjacent_c_points`; what is returned instead: `C20_stale`, and when it is right: `C20_right_iff`, `C20_right_iff_residual` |
| C24, C27 | A coarse grid with one point passes the documented checks and ends in an `IndexError`; the warning of `simple_setup_problem` tests `coarsening * level` instead of `coarsening ^ (level - 1)`. | `C24_one_point_grid`, `C27_wrong_warning`, `C27_index_error` |
| C29 | The global criterion gathers on `MPI.COMM_WORLD` but combines on time rank 0: a `TypeError` on every space process but the first. | `C29_type_error` |
| C31–C33 | Local criterion: announces the end and iterates on (time norms other than the maximum norm); unmatched clean-up messages for `cf_iter = 0` and for `conv_crit = 3`; the clean-up sends an unrestricted fine vector as coarse ghost value. | `C31_counterexample`, `C32_*_counterexample`, `C33_counterexample` |
| C41 | Coarse grids without the initial time are accepted and the run waits forever, already on one process; if process 0 has no point on such a level its constructor raises `IndexError`. | `C41_hangs`, `C41_raises` |
| C43 | `VectorMachine.set_values` is wrong if the back part is empty (`values[-0:]`). | `Machine.C43_empty_back` |
| C45 | Dahlquist 'MR' uses the constant -1 instead of lambda. | `Apps.C45_counterexample`, exact condition `Apps.C45_midpoint_iff` |
| C48 | Heat2D forward Euler adds the old boundary values to the prescribed ones. | `Apps.Heat2D.C48_forward_counterexample` |
| C51 | The Allen-Cahn Newton loop tests `0 < newton_maxiter` and never counts: at the default parameters a state with an exact cycle of length two iterates forever (the cycle repels, so rounding would eventually leave it; the bound is still not enforced). | `Apps.C51_counterexample` |
| C57 | AT-MGRIT on several processes: `g_coarsest` is never created (`create_coarsest_level` is not called), every run raises `AttributeError`. | `At.C37_attribute_error` |
| C61 | The PETSc applications keep the operator of the previous call if the step sizes agree up to numpy's `isclose` (absolute tolerance 1e-8: any two step sizes below 1e-8 are "equal"). | `Petsc.C61_counterexample`, `Petsc.C61_reused` |
| C62 | `HeatPetsc.get_a` exchanges the two spacings. | `Petsc.C62_exchanged`, `Petsc.C62_counterexample` |
| C63 | `GrayScott.formJacobian` uses one spacing for both directions. | `Petsc.C63_counterexample`, `Petsc.C63_defect` |
| C79 | The maps of the two regions are built with numpy's `in`, which compares single coordinates: two nodes of different regions with one equal coordinate (say on an axis) end in an `IndexError`. | `Mesh.C79_raises`, `Mesh.C79_compute_raises` |
| C80 | Negative interpolation weights are set to zero without rescaling the others, so a constant is not reproduced at a point slightly outside of its triangle (`find_simplex` has tolerance 0.1); points between the two regions get the entry of the coarse vector that happens to have the same position. | `Mesh.C80_not_constant`, `Mesh.C80_gap` |
| C81 | `get_nodes` tells block headers from nodes by the second entry: nodes with x written `0`, `1` or `2` are lost. | `Mesh.C81_dropped` |
| C83 | `getdp_read_resolution` assigns the values found to a slice: a file cut off after the first value of a solution is accepted, with this value for all unknowns. | `GetDP.C83_broadcast` |
| C84 | `run_getdp` does not look at the time of the solution it reads: if the solver ends without a new solution, the start values are returned as the values at `t_stop`. | `GetDP.C84_time_unchecked` |
| C91 | The documentation of the Arenstorf orbit has x − a instead of x − b in the second distance; the code is right. | `Orbit.C91_documentation` |
| C96 | With `cf_iter=0` and a restriction that loses information (spatial coarsening) the jump criterion can be zero in the first iteration although the values are wrong. | `C96_counterexample`, `C96_counterexample_distributed` |
| C100 | Allen-Cahn: the points of the periodic mesh include both ends of the period and are 1/(nx − 1) apart, the matrix uses the spacing 1/nx.  Heat1D with three points (one unknown) raises an `IndexError`. | `Space.C100_allen_cahn_counterexample`, `Space.C100_heat_1d` |
| C102 | Dahlquist `MR` has −1 in place of λ in its stage: with λ = −2 the result does not converge to the solution, however small the steps. | `C102_midpoint_counterexample` |
| C105 | `MgritWithPlots.plot_cycle` raises `TypeError` for every accepted set of arguments (`self.cf_iter * 'CF'` with a list); written for an integer, it draws an F-cycle with a V-cycle on the finest level that is not performed.  The distribution plot raises `UnboundLocalError` for one level and shows process 0 as the owner of the whole coarsest level; the convergence plot leaves out zeros; with spatial parallelism nothing is drawn. | `Plot.C105_cycle_counterexample`, `Plot.C105_fcycle_counterexample`, `Plot.C105_one_level_counterexample`, `Plot.C105_coarsest_counterexample`, `Plot.C105_convergence_counterexample`, `Plot.C105_spatial_counterexample` |
| C107 | `MgritMachine` and `MgritMachineConvJl` call `f_exchange`, which does not exist any more: with two or more levels every nested iteration and every `solve()` raises `AttributeError`, and the problems are left with the sinusoidal source.  `solve()` never evaluates the joule-loss criterion; where it is evaluated (examples), losses that are zero count as unchanged, and the constructor leaves 100 as an additional first entry of the history. | `Jl.C107_nested_counterexample`, `Jl.C107_solve_counterexample`, `Jl.C107_zero_counterexample`, `Jl.C107_history_counterexample` |
| C108 | Allen-Cahn with IMEX leaves [−1, 1] for steps above ε²/ν (default parameters, step 2 ε²: the constant 1/2 becomes 5/4), CN likewise. | `Apps.AllenCahn.C108_bound_imex_counterexample`, `Apps.AllenCahn.C108_bound_cn_counterexample` |
| C112 | Integration backwards in time: with two or more levels process 0 ends in an `IndexError` (no coarse point between its first and last time); on several processes process 1 receives from process P, which does not exist.  A time that occurs twice on the finest grid and belongs to the coarse grid gives more C-points than coarse points. | `C112_backward_counterexample`, `C112_backward_source`, `C112_repeated_counterexample` |
| C113 | With a local criterion and the maximum norm (the only one of the three for which the local criteria end properly, C31, C32) a process without C-points other than the initial point takes the maximum of an empty list: `ValueError` in the first iteration (NumPy before 2.3), and all other processes wait forever.  A grid of one time point ends in a `ValueError` at the end of `solve()`. | `C113_local_raises`, `C113_one_point` |
| C114 | Tags start at 50000 (mgrit.py:192-195); the MPI standard guarantees only tags up to 32767, and an implementation with that bound rejects the first message of every run on several processes. | `C114_beyond`, `C114_tag_bound` |
| C116 | The penalty `mu` of `Diffusion2D` is not divided by the size of the triangles.  On the periodic square with edges h the form is indefinite if mu < 1/h (default mu = 5 on the 10 × 10 square: more than 50 × 50 squares): some step sizes have no unique result, and for all sufficiently small ones some functions grow.  The shipped example (20 × 20) is safe. | `Firedrake.C116_periodic_counterexample`, `Firedrake.C116_default_partial`; exact conditions `Firedrake.TriMesh.C116_wellposed_iff`, `Firedrake.TriMesh.C116_stable_iff` |
| C118 | The implicit equations do not determine the step for large step sizes (Allen–Cahn: dt > ε²; Gray–Scott with default rates: dt ≥ 6). | `Apps.AllenCahn.C118_multiple`, `Petsc.C118_rest_multiple` |
| C119 | `GrayScott.initial_guess` places the second substance in [1, 1.5]², but the default domain is [0, 1)²: with `L ≤ 1`, as in `example_gray_scott_2d_petsc.py`, the initial value is the stationary state u = 1, v = 0 and nothing ever happens. | `Petsc.C119_initial_trivial`, `Petsc.C119_trivial_run` |
| C119 | Implicit-explicit and explicit steps can give negative concentrations, for every step size. | `Petsc.C119_counterexample` |
| C122 | `examples/example_heat_2d.py`: the module documentation (right-hand side and solution) is copied from the one-dimensional script, and the formula in the documentation of `rhs` has a misplaced parenthesis; with it the stated solution does not solve the equation.  The code of `rhs` is right. | `C122_documented_rhs`; the code: `Apps.Heat2D.C122_heat_2d` |
| C123 | `HeatPetsc`: because of the exchanged spacings (C62), time stepping does not converge to `u_exact` if the numbers of points in the two directions differ: with `2k + 1` and `8k + 1` points the value in the middle is too small by at least `44 a t cos t / (1 + 64 a t)` for every `k` and every time grid. | `Petsc.C123_counterexample`; `mx = my`: `Petsc.C123_square` |
| C125 | `example_convergence_criterion.py`: a component that is zero in the new iterate counts as unchanged (`where=new != 0`): an iteration that changes every C-point from 1 to 0 records 0 and the solver stops with a wrong value; the call in the constructor leaves 100 as first entry of the returned history. | `Custom.C125_counterexample`, `Custom.C125_history_counterexample`; nonzero components: `Custom.C125_stops_partial`, `C125_zero_partial`, `C125_error_partial` |
| C126 | Example scripts: with the default `output_lvl=1` the output function is called after the last barrier of `solve()`; for every problem on two or more processes there is an execution in which process 0 has returned (and lists the directory) while the last process has not called its output function. Files of an earlier run with more processes stay and are loaded as well (`example_heat_2d.py` then indexes `heat0.t` out of range). `len(info['conv']) + 1` directories are read, fewer than iterations if a recorded value is exactly zero. `'/petsc' + str(time_rank) + str(space_rank)`: time rank 1, space rank 11 and time rank 11, space rank 1 share a file. | `C126_race_counterexample`, `C126_leftover_counterexample`, `C126_directories_partial`, `C126_petsc_names_counterexample`; `C126_complete` for `output_lvl=2` |
| C128 | `np.isclose(np.diff(tmp_cpts), …)` (mgrit.py:215) compares integers with relative tolerance 1e-5: C-points at 0, 100000, 200001 give no warning about non-uniform coarsening. | `C128_warning_counterexample`; factors below 100000: `C128_warning_partial` |
| C129 | `AtMgritCustomized.nested_iteration` (optimization_workflow.py:105) calls `self.f_exchange`, which no class defines (so does `AtMgritMachine` in examples/at_mgrit/runme_machine.py:73): every worker raises in the first run and the optimizer waits for ever. | `C129_counterexample`; with a run that returns: `C129_values_partial`, `C129_ends_partial` |
| C130 | Levels constructed with `t_start`, `t_stop` and their own `nt` need not be nested in double precision unless the factor is a power of two: `nt=16` and `nt=6` on [0, 1] raise 'Some points from level 0 are not points of level 1' (mgrit.py:93-96). | `C130_counterexample`; powers of two: `C130_valid_partial` |
| C131 | The convergence criteria look at the C-points only (mgrit.py:372-412). If the last C-point is not the last time, NaN or infinite values after it go unnoticed: the run reports convergence and returns them. | `C131_counterexample`; up to the last C-point: `C131_values_partial` |
| C131 | With `t_norm=2` entries below 1e-162 have squares that vanish, so that their norm is zero (mgrit.py:430-431); the tolerance is only effective above that, and a zero is left out of the returned history. | `C131_underflow` |
| C132 | With a local criterion (`conv_crit` 2) a second `solve()` of the same object on several processes does not end: `sender_finished` and `pre_finished` keep the marks of the first call (mgrit.py:441-450, 693-715), so nobody receives any more and `clean_up` waits for ever for its sends. | `C132_second_solve_counterexample` |
| C132 | With a local criterion the number of iterations and the history differ between the processes, so a script that decides by them calls different solvers on different processes. | `C132_decision_counterexample` |
| C133 | A line or triangle with a node whose first coordinate is written `0`, `1` or `2` (a node on the axis): the node is taken for the head of a block by `get_nodes` (C81) and left out, and the constructor of `GridTransferMachine` ends in a `KeyError`. The shipped meshes of version 4 have no such node, so it needs another mesh. | `C133_key_error` |
| C133 | Only version `4` exactly is accepted; `4.1` raises the exception for unsupported versions (helper.py:198), as for the shipped `im_3kW.msh` (4.1) and `im_3kW_orig.msh` (2.2). The message names version 4, so this may be intended. | `C133_version_counterexample` |
| C134 | The commands are built without quotation marks and given to a shell (induction_machine.py:136-150, 166-180). The constructor tests the program with a list of arguments (line 68) and accepts a path with a blank; every step then starts another program or fails. | `C134_blank_counterexample` |
| C134 | The unknowns are read from `path_im3kw + grid + '.pre'` (line 58), the mesh from the directory of `path_im3kw + pro_file` (lines 108, 119): for a path that ends with a part of a name these are different names. | `C134_directory_counterexample` |
| C135 | The criterion of the geometry optimization (optimization_workflow.py:65-67) leaves out points where the new losses are zero: if the losses become zero in the whole region, the run counts as converged whatever they were before. The value recorded by the constructor is 100 for every approximation with losses. | `C135_zero_counterexample`, `C135_first` |
| C136 | Only the finest level is divided evenly (mgrit.py:755-764). With a coarse grid that is not every M-th point of the finest one (allowed by the constructor) the coarse levels are unbalanced without bound: in the example one process owns all coarse points. | `C136_balance_counterexample` |
| C137 | The Firedrake applications keep the result of the last call as initial guess (burgers_firedrake.py:50-53, diffusion_2d_firedrake.py:63-68), so results depend on earlier calls within the tolerance of the inner solver; a reported residual of zero does not exclude this. | `C137_history_matters` |
| C139 | The hierarchies of the induction machine experiments are valid only because the final time is a multiple of a power of two and 42 divides the number of intervals; nothing checks this. With the final time 0.01, point 35 of the second level is missing on the finest one. | `C139_final_time_counterexample`, `C139_remainder` |
| C140 | example_gray_scott_2d_petsc.py:35-36 builds the second and third level from the same `t[::2]`. On one process the third level only costs time. On several processes it makes all points of the second level C-points, so the boundaries separate neighbouring C-points (see C20) and an iteration computes other values than without the level. | `C140_no_effect`, `C140_counterexample`, with the default arguments of the example: `C140_defaults_counterexample` |
| C85 | `VectorMachine.norm` leaves out joule losses, currents, voltages and torque, which the coarse correction changes at C-points: a run with residual zero may stop with wrong joule losses. | `C85_counterexample` |

Seen while reading, without a theorem: `error_correction` indexes `index_local[lvl]` instead of
`index_local[lvl + 1]` (harmless, both are consecutive from the same offset; the model follows the code and
C20 covers it); a random initial guess depends on the number of processes; `clone_rand` of `VectorMachine`
gives zeros and that of `VectorPetsc` a copy.

## 5. What is not modelled

* The code after the calls of removed methods in `mgrit_machine.py` and `mgrit_machine_conv_jl.py` (never reached), Matplotlib, GetDP itself (an arbitrary function in `GetDP`) and Qhull's triangulation (an arbitrary function in `Mesh`), Firedrake's solvers (exact in C116, C117), the two-dimensional Burgers problem, parts of POSIX shells other than words, quotation marks and comments, PETSc's solvers and its distribution of a grid over a
  space communicator, SciPy's `solve_ivp` (Arenstorf orbit; its right-hand side is modelled).
* Floating point outside C20, C104, C115, C130 (there without overflow and subnormal numbers) and C131; `spsolve` is an exact solver (a relation `Lin.Solves`), shown to have exactly one result
  where the code uses it.
* Timing, logging text.
* Integers: Python's are unbounded; `int(a / b + 1)` in `split_into` is exact division, justified by `C130_split` below
  2^51 points.
* MPI failures other than C75–C77 (crash of a process with loss of its messages in transit); in particular
  loss, duplication or reordering of messages between running processes, which MPI excludes.
