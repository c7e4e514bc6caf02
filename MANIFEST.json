{
 "claims": [
  {
   "property": "C01",
   "status": "proved",
   "theorems": [
    "Pymgrit.C01_block_distribution",
    "Pymgrit.C01_too_many_processes"
   ],
   "note": ""
  },
  {
   "property": "C02",
   "status": "proved",
   "theorems": [
    "Pymgrit.C02_unique_owner",
    "Pymgrit.C02_owner_of_time"
   ],
   "note": ""
  },
  {
   "property": "C03",
   "status": "proved",
   "theorems": [
    "Pymgrit.C03_sendTo",
    "Pymgrit.C03_getFrom",
    "Pymgrit.C03_symmetric",
    "Pymgrit.C03_no_partner"
   ],
   "note": ""
  },
  {
   "property": "C04",
   "status": "proved",
   "theorems": [
    "Pymgrit.C04_neighbours",
    "Pymgrit.C04_partner_exists",
    "Pymgrit.C04_exclusive"
   ],
   "note": ""
  },
  {
   "property": "C05",
   "status": "proved",
   "theorems": [
    "Pymgrit.C05_partition",
    "Pymgrit.C05_pairing"
   ],
   "note": ""
  },
  {
   "property": "C06",
   "status": "partial",
   "theorems": [
    "Pymgrit.C06_iff",
    "Pymgrit.C06_python_partial",
    "Pymgrit.C06_python_uniform",
    "Pymgrit.C06_python_runs",
    "Pymgrit.C06_sorted",
    "Pymgrit.C06_rotated_partial",
    "Pymgrit.C06_isolated_partial",
    "Pymgrit.C06_counterexample",
    "Pymgrit.C06_python_counterexample",
    "Pymgrit.C06_python_wrong_solution"
   ],
   "note": "Exact characterisation of the admissible iteration orders (C06_iff).  With the hash tables of CPython modelled: proved for every uniform coarsening and for dense or isolated F-points, refuted for irregular coarsening (ten points, coarse grid 0,2,...,7: the residual is reported as zero and the last value is wrong)."
  },
  {
   "property": "C07",
   "status": "proved",
   "theorems": [
    "Pymgrit.C07_fRelax",
    "Pymgrit.C07_fRelax_unique"
   ],
   "note": ""
  },
  {
   "property": "C08",
   "status": "proved",
   "theorems": [
    "Pymgrit.C08_cRelax",
    "Pymgrit.C08_cRelax_old"
   ],
   "note": ""
  },
  {
   "property": "C09",
   "status": "proved",
   "theorems": [
    "Pymgrit.C09_coarsest_solve",
    "Pymgrit.C09_unique",
    "Pymgrit.C09_level0"
   ],
   "note": ""
  },
  {
   "property": "C10",
   "status": "proved",
   "theorems": [
    "Pymgrit.C10_one_level",
    "Pymgrit.C10_after_constructor",
    "Pymgrit.C10_distributed"
   ],
   "note": ""
  },
  {
   "property": "C100",
   "status": "partial",
   "theorems": [
    "Pymgrit.Space.C100_heat_1d",
    "Pymgrit.Space.C100_advection",
    "Pymgrit.Space.C100_heat_2d",
    "Pymgrit.Space.C100_allen_cahn_counterexample",
    "Pymgrit.Space.C100_meshes_partial",
    "Pymgrit.Space.C100_nested",
    "Pymgrit.Space.C100_cubic"
   ],
   "note": "Refuted for Allen-Cahn (every number of points: the points are 1/(nx-1) apart, the matrix uses 1/nx, first and last point coincide); proved for the others.  Fewer than four points (three for advection, two per direction in two dimensions) end in an IndexError."
  },
  {
   "property": "C101",
   "status": "proved",
   "theorems": [
    "Pymgrit.C101_heat_1d",
    "Pymgrit.C101_heat_1d_solve",
    "Pymgrit.C101_advection",
    "Pymgrit.Apps.Heat2D.C101_heat_2d"
   ],
   "note": "Exact arithmetic; the linear solver is exact."
  },
  {
   "property": "C102",
   "status": "partial",
   "theorems": [
    "Pymgrit.C102_backward_euler",
    "Pymgrit.C102_forward_euler",
    "Pymgrit.C102_trapezoidal",
    "Pymgrit.C102_midpoint_partial",
    "Pymgrit.C102_midpoint_counterexample",
    "Pymgrit.C102_solve"
   ],
   "note": "Refuted for MR with lambda = -2 (every grid: the error at time 1 is larger than 1/5; the stage uses -1 in place of lambda); MR is proved for lambda = -1. Exact arithmetic."
  },
  {
   "property": "C103",
   "status": "proved",
   "theorems": [
    "Pymgrit.C103_at_mgrit",
    "Pymgrit.C103_rate_two",
    "Pymgrit.C103_rate_V",
    "Pymgrit.C103_dahlquist",
    "Pymgrit.C103_symmetric",
    "Pymgrit.C103_heat_1d"
   ],
   "note": "One process (on several AT-MGRIT does not run, C57). Exact arithmetic."
  },
  {
   "property": "C104",
   "status": "proved",
   "theorems": [
    "Pymgrit.C104_inexact",
    "Pymgrit.C104_factor_two",
    "Pymgrit.C104_factor_V",
    "Pymgrit.C104_dahlquist",
    "Pymgrit.C104_symmetric",
    "Pymgrit.C104_heat_1d"
   ],
   "note": "The perturbation of a step is bounded for all arguments (absolute, not relative, tolerances)."
  },
  {
   "property": "C105",
   "status": "partial",
   "theorems": [
    "Pymgrit.Plot.C105_cycle_counterexample",
    "Pymgrit.Plot.C105_cycle_partial",
    "Pymgrit.Plot.C105_fcycle_counterexample",
    "Pymgrit.Plot.C105_spatial_counterexample",
    "Pymgrit.Plot.C105_one_process_partial",
    "Pymgrit.Plot.C105_distribution_partial",
    "Pymgrit.Plot.C105_coarsest_counterexample",
    "Pymgrit.Plot.C105_one_level_counterexample",
    "Pymgrit.Plot.C105_convergence_partial",
    "Pymgrit.Plot.C105_convergence_counterexample"
   ],
   "note": "Refuted: the cycle plot raises TypeError for every accepted set of arguments (cf_iter is a list), with an integer the F-cycle shows one V-cycle too much; one level raises UnboundLocalError, the coarsest row shows process 0 only; values that are zero are left out; nothing is drawn with spatial parallelism. Proved for the rest."
  },
  {
   "property": "C106",
   "status": "proved",
   "theorems": [
    "Pymgrit.C106_values",
    "Pymgrit.C106_iteration",
    "Pymgrit.C106_first_iteration",
    "Pymgrit.C106_nested",
    "Pymgrit.C106_solve",
    "Pymgrit.C106_processes"
   ],
   "note": "On several processes: the loops over F-points, C-points and coarsest points are counted."
  },
  {
   "property": "C107",
   "status": "partial",
   "theorems": [
    "Pymgrit.Jl.C107_nested_counterexample",
    "Pymgrit.Jl.C107_nested_state",
    "Pymgrit.Jl.C107_nested_partial",
    "Pymgrit.Jl.C107_solve_counterexample",
    "Pymgrit.Jl.C107_solve_partial",
    "Pymgrit.Jl.C107_criterion_partial",
    "Pymgrit.Jl.C107_processes",
    "Pymgrit.Jl.C107_zero_counterexample",
    "Pymgrit.Jl.C107_first_value",
    "Pymgrit.Jl.C107_history_counterexample"
   ],
   "note": "Refuted: with two or more levels nested_iteration and solve() raise AttributeError (f_exchange does not exist any more), leaving the sinusoidal source set; on one level the losses are not looked at by solve(), the history starts with an additional 100; losses that are zero count as unchanged. The criterion itself, proved for nonzero losses, is the one of the examples."
  },
  {
   "property": "C108",
   "status": "partial",
   "theorems": [
    "Pymgrit.Apps.AllenCahn.C108_bound_imex_partial",
    "Pymgrit.Apps.AllenCahn.C108_bound_imex_counterexample",
    "Pymgrit.Apps.AllenCahn.C108_bound_implicit",
    "Pymgrit.Apps.AllenCahn.C108_bound_cn_partial",
    "Pymgrit.Apps.AllenCahn.C108_bound_cn_counterexample",
    "Pymgrit.Apps.AllenCahn.C108_stability",
    "Pymgrit.Apps.AllenCahn.C108_energy_implicit",
    "Pymgrit.Apps.AllenCahn.C108_energy_imex",
    "Pymgrit.Apps.AllenCahn.C108_start",
    "Pymgrit.Apps.AllenCahn.C108_imex",
    "Pymgrit.Apps.AllenCahn.C108_implicit"
   ],
   "note": "The bound holds for IMPL with all step sizes; for IMEX and CN it is refuted without and proved with a restriction of the step size (eps^2/nu for IMEX). The energy is proved not to increase for IMPL up to 2 eps^2 (and the Newton tolerance) and IMEX up to eps^2/nu. Exact arithmetic."
  },
  {
   "property": "C109",
   "status": "proved",
   "theorems": [
    "Pymgrit.Apps.AllenCahn.C109_sign",
    "Pymgrit.Apps.AllenCahn.C109_decreasing",
    "Pymgrit.Apps.AllenCahn.C109_start_radius",
    "Pymgrit.Apps.AllenCahn.C109_exact_radius",
    "Pymgrit.Apps.AllenCahn.C109_computed_radius",
    "Pymgrit.Apps.AllenCahn.C109_symmetric_step",
    "Pymgrit.Apps.AllenCahn.C109_symmetric_start",
    "Pymgrit.Apps.AllenCahn.C109_symmetric"
   ],
   "note": "Exact arithmetic; the linear solver is exact."
  },
  {
   "property": "C11",
   "status": "proved",
   "theorems": [
    "Pymgrit.C11_initial_value"
   ],
   "note": ""
  },
  {
   "property": "C110",
   "status": "proved",
   "theorems": [
    "Pymgrit.C110_change_of_time",
    "Pymgrit.C110_unit_and_origin",
    "Pymgrit.C110_autonomous",
    "Pymgrit.C110_positions"
   ],
   "note": "For grids as in Valid (C41). Changes of the origin in floating point change the lengths of the intervals; here the times are exact."
  },
  {
   "property": "C111",
   "status": "proved",
   "theorems": [
    "Pymgrit.C111_longer_run",
    "Pymgrit.C111_observers",
    "Pymgrit.C111_processes",
    "Pymgrit.C111_observers_processes"
   ],
   "note": "On several processes for the global criteria."
  },
  {
   "property": "C112",
   "status": "partial",
   "theorems": [
    "Pymgrit.C112_backward_counterexample",
    "Pymgrit.C112_backward_source",
    "Pymgrit.C112_repeated_counterexample",
    "Pymgrit.C112_one_process_partial"
   ],
   "note": "Refuted: decreasing grids on two or more levels end in an IndexError on process 0 (fewer processes than points); on several processes process 1 receives from a process that does not exist; a repeated coarse time gives more C-points than coarse points. Proved for one process if the coarse points lie between the first and the last time and no time is repeated (one level: any order), without random initial guess."
  },
  {
   "property": "C113",
   "status": "partial",
   "theorems": [
    "Pymgrit.C113_local_raises",
    "Pymgrit.C113_one_point",
    "Pymgrit.C113_local_partial",
    "Pymgrit.C113_other_norms",
    "Pymgrit.C113_global"
   ],
   "note": "Refuted for a local criterion with the maximum norm if some process owns no C-point (NumPy before 2.3: no process returns, in any execution) and for a single time point. Proved otherwise: the programs with NumPy's exceptions have the same outcomes as those without."
  },
  {
   "property": "C114",
   "status": "partial",
   "theorems": [
    "Pymgrit.C114_messages",
    "Pymgrit.C114_iterations",
    "Pymgrit.C114_tag_bound",
    "Pymgrit.C114_beyond",
    "Pymgrit.C114_tags_partial"
   ],
   "note": "Number, receivers and tags are proved for all executions including crashes and early completion of Waitall. Refuted: the tags start at 50000, the MPI standard guarantees tags up to 32767 only, so a library with that bound rejects the first message of every run on several processes; the tags are proved to stay below an explicit bound. The collective operations (barrier, allgather) are not counted."
  },
  {
   "property": "C115",
   "status": "proved",
   "theorems": [
    "Pymgrit.C115_absolute",
    "Pymgrit.C115_relative",
    "Pymgrit.C115_room_two",
    "Pymgrit.C115_float_dahlquist",
    "Pymgrit.C115_symmetric",
    "Pymgrit.C115_heat_1d",
    "Pymgrit.C115_float_heat_1d",
    "Pymgrit.C115_round_to_nearest"
   ],
   "note": "Exponents are unbounded in the floating-point theorems (no overflow, no subnormal numbers); C115_absolute needs bounds for operands in a range only. The linear solver of the heat equation enters by a bound of its residuals."
  },
  {
   "property": "C116",
   "status": "partial",
   "theorems": [
    "Pymgrit.Firedrake.TriMesh.C116_amount",
    "Pymgrit.Firedrake.TriMesh.C116_constant",
    "Pymgrit.Firedrake.TriMesh.C116_wellposed_iff",
    "Pymgrit.Firedrake.TriMesh.C116_stable_iff",
    "Pymgrit.Firedrake.TriMesh.C116_penalty",
    "Pymgrit.Firedrake.TriMesh.C116_unstable",
    "Pymgrit.Firedrake.C116_mesh",
    "Pymgrit.Firedrake.C116_periodic",
    "Pymgrit.Firedrake.C116_periodic_counterexample",
    "Pymgrit.Firedrake.C116_default_partial",
    "Pymgrit.Firedrake.C116_amount_returned",
    "Pymgrit.Firedrake.C116_returned",
    "Pymgrit.Firedrake.C116_returned_nested"
   ],
   "note": "The conservation statements hold on every mesh. Existence, stability and convergence hold if the penalised form is nonnegative (existence and stability: exactly then); sufficient is a condition between mu and the size of the triangles, met by the shipped example. Refuted in general: mu does not scale with the mesh, on the periodic square all mu < 1/h fail, so the default mu = 5 on the 10 x 10 square from 51 x 51 squares on. The linear solver is exact."
  },
  {
   "property": "C117",
   "status": "proved",
   "theorems": [
    "Pymgrit.Burgers.C117_exists",
    "Pymgrit.Burgers.C117_amount",
    "Pymgrit.Burgers.C117_energy",
    "Pymgrit.Burgers.C117_stable",
    "Pymgrit.Burgers.C117_unique",
    "Pymgrit.Burgers.C117_unique_small",
    "Pymgrit.Burgers.C117_amount_returned"
   ],
   "note": "Newton's method is replaced by the equation it solves; which solution it finds if there are several is left open. Firedrake's quadrature is exact for the polynomials that occur."
  },
  {
   "property": "C118",
   "status": "proved",
   "theorems": [
    "Pymgrit.Apps.AllenCahn.C118_implicit_exists",
    "Pymgrit.Apps.AllenCahn.C118_cn_exists",
    "Pymgrit.Apps.AllenCahn.C118_implicit_unique",
    "Pymgrit.Apps.AllenCahn.C118_cn_unique",
    "Pymgrit.Apps.AllenCahn.C118_implicit_close",
    "Pymgrit.Apps.AllenCahn.C118_cn_close",
    "Pymgrit.Apps.AllenCahn.C118_implicit",
    "Pymgrit.Apps.AllenCahn.C118_multiple",
    "Pymgrit.Petsc.C118_exists",
    "Pymgrit.Petsc.C118_imex",
    "Pymgrit.Petsc.C118_unique",
    "Pymgrit.Petsc.C118_rest_unique",
    "Pymgrit.Petsc.C118_rest_multiple",
    "Pymgrit.Petsc.C118_rest_newton"
   ],
   "note": "Allen-Cahn with even exponents. Existence over the real numbers (theorem of Poincare and Miranda, Verif.Box). SNES and KSP of PETSc are relations; one pass of Newton's method from zero is C118_rest_newton."
  },
  {
   "property": "C119",
   "status": "partial",
   "theorems": [
    "Pymgrit.Petsc.C119_impl",
    "Pymgrit.Petsc.C119_impl_balance",
    "Pymgrit.Petsc.C119_impl_bound",
    "Pymgrit.Petsc.C119_imex_partial",
    "Pymgrit.Petsc.C119_imex_balance",
    "Pymgrit.Petsc.C119_expl_partial",
    "Pymgrit.Petsc.C119_expl_balance",
    "Pymgrit.Petsc.C119_counterexample",
    "Pymgrit.Petsc.C119_rest",
    "Pymgrit.Petsc.C119_initial",
    "Pymgrit.Petsc.C119_support",
    "Pymgrit.Petsc.C119_initial_trivial",
    "Pymgrit.Petsc.C119_trivial_run"
   ],
   "note": "Proved for the implicit method and every step size; for the other two under explicit bounds of the step size, without which it fails for every step size and suitable concentrations. Refuted: the initial value starts no reaction on domains up to the default size L = 1, as in the shipped example; it is the uniform stationary state, and time stepping stays there. PETSc's solvers are exact."
  },
  {
   "property": "C12",
   "status": "proved",
   "theorems": [
    "Pymgrit.C12_fixed_point",
    "Pymgrit.C12_distributed"
   ],
   "note": ""
  },
  {
   "property": "C120",
   "status": "proved",
   "theorems": [
    "Pymgrit.Apps.AllenCahn.C120_contract",
    "Pymgrit.Apps.AllenCahn.C120_quadratic",
    "Pymgrit.Apps.AllenCahn.C120_implicit",
    "Pymgrit.Apps.AllenCahn.C120_implicit_returns",
    "Pymgrit.Apps.AllenCahn.C120_cn"
   ],
   "note": "For the default exponent 2, exact arithmetic and an exact linear solver. Without a bound of the step size the loop need not end (C51)."
  },
  {
   "property": "C121",
   "status": "proved",
   "theorems": [
    "Pymgrit.C121_energy",
    "Pymgrit.C121_stable",
    "Pymgrit.C121_accuracy",
    "Pymgrit.C121_ratio"
   ],
   "note": "For ratios of the spacings between 1/4 and 7 (the shipped example has ratio 1). For a ratio of 40 the energy can grow in a single step (C121_ratio). Exact arithmetic and linear solver."
  },
  {
   "property": "C122",
   "status": "proved",
   "theorems": [
    "Pymgrit.C122_heat_1d",
    "Pymgrit.C122_heat_1d_solve",
    "Pymgrit.C122_heat_1d_numbers",
    "Pymgrit.C122_bdf2",
    "Pymgrit.Apps.Heat2D.C122_heat_2d",
    "Pymgrit.Apps.Heat2D.C122_heat_2d_solve",
    "Pymgrit.C122_documented_rhs"
   ],
   "note": "Exact arithmetic and linear solver. The BDF2 script is covered for time stepping."
  },
  {
   "property": "C123",
   "status": "partial",
   "theorems": [
    "Pymgrit.Petsc.C123_step",
    "Pymgrit.Petsc.C123_error",
    "Pymgrit.Petsc.C123_square",
    "Pymgrit.Petsc.C123_square_partial",
    "Pymgrit.Petsc.C123_counterexample",
    "Pymgrit.Petsc.C123_time_stepping"
   ],
   "note": "Proved for mx = my, with the additional terms of the operator reuse of C61 or for step sizes that are equal or not close. False for mx != my: with 2k+1 and 8k+1 points the midpoint value stays below the stated one by 44 a t cos t / (1 + 64 a t) for every k and every time grid. Exact arithmetic and linear solver, one process in space."
  },
  {
   "property": "C124",
   "status": "proved",
   "theorems": [
    "Pymgrit.Petsc.C124_coordinates",
    "Pymgrit.Petsc.C124_restrict_interpolate",
    "Pymgrit.Petsc.C124_bilinear",
    "Pymgrit.Petsc.C124_bounds",
    "Pymgrit.Petsc.C124_boundary",
    "Pymgrit.Petsc.C124_same_problem",
    "Pymgrit.Petsc.C124_interpolate_exact",
    "Pymgrit.Petsc.C124_solve"
   ],
   "note": "PETSc's matrices (injection, piecewise bilinear interpolation for a refinement by two without periodic boundaries) are part of the model, not of the repository. C124_solve: step sizes equal or not close (C61), weight one."
  },
  {
   "property": "C125",
   "status": "partial",
   "theorems": [
    "Pymgrit.Custom.C125_stops_partial",
    "Pymgrit.Custom.C125_processes",
    "Pymgrit.Custom.C125_terminates",
    "Pymgrit.Custom.C125_zero_partial",
    "Pymgrit.Custom.C125_error_partial",
    "Pymgrit.Custom.C125_counterexample",
    "Pymgrit.Custom.C125_history_counterexample"
   ],
   "note": "Proved for components that are not zero in the new iterate. Refuted: a component that becomes zero counts as unchanged, so the solver can stop with a recorded zero at wrong values; the history has an additional first entry 100 from the call in the constructor. The arrays are those of the run on one process (C20)."
  },
  {
   "property": "C126",
   "status": "partial",
   "theorems": [
    "Pymgrit.C126_iterates_partial",
    "Pymgrit.C126_solution_partial",
    "Pymgrit.C126_directories_partial",
    "Pymgrit.C126_complete",
    "Pymgrit.C126_leftover_counterexample",
    "Pymgrit.C126_race_counterexample",
    "Pymgrit.C126_petsc_names_partial",
    "Pymgrit.C126_petsc_names_counterexample"
   ],
   "note": "Proved for directories without files of an earlier run on more processes; completeness at the return of process 0 for output_lvl=2. Refuted: files of an earlier run on more processes stay and make the list too long; with the default output_lvl=1 the output function is called after the last barrier, so for every problem and every number of processes from two on there is an execution in which process 0 has returned before another process writes its file (the scripts sleep for one or two seconds); a recorded value of exactly zero hides the last iterations from example_output_fcn.py; from eleven processes in space on the names of the PETSc example collide. The encoding of the files and partly written files are not modelled."
  },
  {
   "property": "C127",
   "status": "proved",
   "theorems": [
    "Pymgrit.Heap.C127_values",
    "Pymgrit.Heap.C127_methods",
    "Pymgrit.Heap.C127_alias"
   ],
   "note": "Vector classes as in C42. The user's own in-place changes of arrays obtained by get_values() are excluded (C42_inplace_alias)."
  },
  {
   "property": "C128",
   "status": "partial",
   "theorems": [
    "Pymgrit.C128_factor",
    "Pymgrit.C128_silent",
    "Pymgrit.C128_warning_partial",
    "Pymgrit.C128_times",
    "Pymgrit.C128_simple_setup",
    "Pymgrit.C128_warning_counterexample",
    "Pymgrit.C128_max_dt"
   ],
   "note": "Proved for reported factors below 100000. Refuted beyond: the gaps are compared with np.isclose, so gaps of 100000 and 100001 count as equal. The remaining lines of the run information print attributes unchanged."
  },
  {
   "property": "C129",
   "status": "partial",
   "theorems": [
    "Pymgrit.Opt.C129_reads",
    "Pymgrit.Opt.C129_values_partial",
    "Pymgrit.Opt.C129_ends_partial",
    "Pymgrit.Opt.C129_complete_partial",
    "Pymgrit.Opt.C129_counterexample",
    "Pymgrit.Opt.C129_region",
    "Pymgrit.Opt.C129_mean"
   ],
   "note": "Proved for a run that returns. Refuted for the script as it is: its nested iteration calls f_exchange, which does not exist (C107), so every worker raises and process 0 waits for the first result for ever, for every optimizer and schedule. The run is modelled by its accesses to the mesh and its final allgather; the wait of ten seconds and failures of gmsh and getdp are not modelled. At least two processes."
  },
  {
   "property": "C13",
   "status": "proved",
   "theorems": [
    "Pymgrit.C13_zero_residual",
    "Pymgrit.C13_distributed",
    "Pymgrit.C13_stale"
   ],
   "note": ""
  },
  {
   "property": "C130",
   "status": "partial",
   "theorems": [
    "Pymgrit.Double.C130_nested_partial",
    "Pymgrit.Double.C130_increasing",
    "Pymgrit.Double.C130_valid_partial",
    "Pymgrit.Double.C130_counterexample",
    "Pymgrit.Double.C130_split",
    "Pymgrit.Double.C130_rounding"
   ],
   "note": "Proved if the numbers of intervals differ by powers of two. Refuted for other factors: nt=16 and nt=6 on [0, 1] are rejected, because 3 * 0.2 is not a time of the fine grid in double precision. simple_setup_problem takes slices and is not affected (C26). Rounding to 53 bits, ties to even, without overflow and subnormal numbers; NumPy's linspace from knowledge of its source."
  },
  {
   "property": "C131",
   "status": "partial",
   "theorems": [
    "Pymgrit.Ieee.C131_norm",
    "Pymgrit.Ieee.C131_not_a_number",
    "Pymgrit.Ieee.C131_underflow",
    "Pymgrit.Ieee.C131_residuals",
    "Pymgrit.Ieee.C131_values_partial",
    "Pymgrit.Ieee.C131_runs_on_partial",
    "Pymgrit.Ieee.C131_jump_partial",
    "Pymgrit.Ieee.C131_local_partial",
    "Pymgrit.Ieee.C131_counterexample"
   ],
   "note": "Proved up to the last C-point for the residual criterion, at the C-points for the jump criterion, at the C-points and the times before them for the local residual criterion. Refuted after the last C-point: no criterion looks there, and a run with NaN at the last time reports convergence after at most two iterations. Euclidean norm: up to one rounding and for tolerances of at least 2^-500 (below, squares vanish: C131_underflow)."
  },
  {
   "property": "C132",
   "status": "partial",
   "theorems": [
    "Pymgrit.Script.C132_terminates_partial",
    "Pymgrit.Script.C132_same_as_serial_partial",
    "Pymgrit.Script.C132_one_after_another_partial",
    "Pymgrit.Script.C132_as_alone_partial",
    "Pymgrit.Script.C132_second_solve_counterexample",
    "Pymgrit.Script.C132_decision_counterexample"
   ],
   "note": "Proved for global criteria (any program); for local residual criteria if every solver is solved once and the program does not decide by the histories. Refuted for the local criteria otherwise: a second solve() of the same solver never ends, because the marks that neighbours have finished are not reset; and processes have different histories, so that decisions by them differ."
  },
  {
   "property": "C133",
   "status": "partial",
   "theorems": [
    "Pymgrit.Mesh.C133_read",
    "Pymgrit.Mesh.C133_lookup",
    "Pymgrit.Mesh.C133_arrays",
    "Pymgrit.Mesh.C133_no_error_partial",
    "Pymgrit.Mesh.C133_returns_partial",
    "Pymgrit.Mesh.C133_constructor",
    "Pymgrit.Mesh.C133_key_error",
    "Pymgrit.Mesh.C133_version_counterexample"
   ],
   "note": "Reading, lookup and arrays are proved for every file of the format with distinct elements. That the constructor does not fail is proved if the nodes of lines and triangles are read; refuted otherwise: a node whose first coordinate is written 0, 1 or 2 is left out by get_nodes (C81), and a line or triangle with it ends the constructor in a KeyError. Version 4.1 is rejected."
  },
  {
   "property": "C134",
   "status": "partial",
   "theorems": [
    "Pymgrit.Shell.C134_words_partial",
    "Pymgrit.Shell.C134_options_partial",
    "Pymgrit.Shell.C134_directory_partial",
    "Pymgrit.Shell.C134_files",
    "Pymgrit.Shell.C134_name",
    "Pymgrit.Shell.C134_quotes",
    "Pymgrit.Shell.C134_blank_counterexample",
    "Pymgrit.Shell.C134_directory_counterexample"
   ],
   "note": "Proved for names and values without blanks and characters with a meaning for the shell, and for paths that are empty or end with one slash. Refuted otherwise: a blank in the path of GetDP makes the shell start another program, although the constructor has accepted the path; with a path that does not end with a slash, unknowns and mesh are taken from files with different names. The shell is a model of the word splitting of POSIX; commands with other special characters have no meaning in it."
  },
  {
   "property": "C135",
   "status": "partial",
   "theorems": [
    "Pymgrit.Opt.C135_gather",
    "Pymgrit.Opt.C135_processes",
    "Pymgrit.Opt.C135_criterion_partial",
    "Pymgrit.Opt.C135_first",
    "Pymgrit.Opt.C135_zero_counterexample"
   ],
   "note": "Order of the values and independence of the number of processes are proved. The meaning of the criterion is proved for points with losses other than zero; refuted for the others: losses that become zero count as no change. With nested iterations the class raises before it comes to the criterion (C129)."
  },
  {
   "property": "C136",
   "status": "partial",
   "theorems": [
    "Pymgrit.C136_count",
    "Pymgrit.C136_balance_partial",
    "Pymgrit.C136_optimal_partial",
    "Pymgrit.C136_loops_partial",
    "Pymgrit.C136_idle",
    "Pymgrit.C136_setup",
    "Pymgrit.C136_products",
    "Pymgrit.C136_balance_counterexample",
    "Pymgrit.C136_fpoints_sharp"
   ],
   "note": "Proved for levels that consist of every M-th point of the finest grid, in particular for every hierarchy made by simple_setup_problem or by products of coarsening factors. Refuted for other coarse grids: one process can own all points of a level and another one none. The bound two for the F-points is attained."
  },
  {
   "property": "C137",
   "status": "proved",
   "theorems": [
    "Pymgrit.C137_memory",
    "Pymgrit.C137_histories",
    "Pymgrit.C137_stopped",
    "Pymgrit.C137_dahlquist",
    "Pymgrit.C137_memoryless",
    "Pymgrit.C137_calls",
    "Pymgrit.C137_solve_calls",
    "Pymgrit.C137_history_matters"
   ],
   "note": "On one time process, global residual or jump criterion. With objects without memory the model is the driver of C10-C17. The dependence on the history is shown by a solver that returns its last result if that is good enough."
  },
  {
   "property": "C138",
   "status": "proved",
   "theorems": [
    "Pymgrit.Depth.C138_values",
    "Pymgrit.Depth.C138_chain",
    "Pymgrit.Depth.C138_sequential_part",
    "Pymgrit.Depth.C138_one_level",
    "Pymgrit.Depth.C138_coarsening",
    "Pymgrit.Depth.C138_at"
   ],
   "note": "Global criterion; AT-MGRIT on one process. Chains through the vectors are counted; that every process waits for the value of the criterion before the next iteration is not."
  },
  {
   "property": "C139",
   "status": "proved",
   "theorems": [
    "Pymgrit.MachineGrid.C139_exact",
    "Pymgrit.MachineGrid.C139_kept",
    "Pymgrit.MachineGrid.C139_valid",
    "Pymgrit.MachineGrid.C139_alternate",
    "Pymgrit.MachineGrid.C139_internal_step",
    "Pymgrit.MachineGrid.C139_shipped",
    "Pymgrit.MachineGrid.C139_remainder",
    "Pymgrit.MachineGrid.C139_final_time_counterexample",
    "Pymgrit.MachineGrid.C139_values",
    "Pymgrit.MachineGrid.C139_runs",
    "Pymgrit.MachineGrid.C139_shipped_runs"
   ],
   "note": "That a step of the external solver over several internal steps equals the steps over its parts is a hypothesis of C139_values; the solver itself is not modelled."
  },
  {
   "property": "C14",
   "status": "proved",
   "theorems": [
    "Pymgrit.C14_prefix",
    "Pymgrit.C14_prefix_any_weight",
    "Pymgrit.C14_finite_termination",
    "Pymgrit.C14_finite_termination_any_weight",
    "Pymgrit.C14_distributed",
    "Pymgrit.C14_stale"
   ],
   "note": ""
  },
  {
   "property": "C140",
   "status": "partial",
   "theorems": [
    "Pymgrit.Redundant.C140_no_effect",
    "Pymgrit.Redundant.C140_returned_partial",
    "Pymgrit.Redundant.C140_run_partial",
    "Pymgrit.Redundant.C140_example",
    "Pymgrit.Redundant.C140_counterexample",
    "Pymgrit.Redundant.C140_defaults_counterexample",
    "Pymgrit.Redundant.C140_conditions_needed",
    "Pymgrit.Redundant.C140_relaxation_solves"
   ],
   "note": "True of the values computed by one process. On several processes the level above the copy has neighbouring C-points on different processes, whose ghost values are stale (finding C20), and the claim is false: C140_counterexample."
  },
  {
   "property": "C15",
   "status": "proved",
   "theorems": [
    "Pymgrit.C15_skip_first_f_relax",
    "Pymgrit.C15_convergence_keeps"
   ],
   "note": ""
  },
  {
   "property": "C16",
   "status": "proved",
   "theorems": [
    "Pymgrit.C16_full_residual",
    "Pymgrit.C16_three_norms"
   ],
   "note": ""
  },
  {
   "property": "C17",
   "status": "proved",
   "theorems": [
    "Pymgrit.C17_stopping_rule",
    "Pymgrit.C17_no_iterations",
    "Pymgrit.C17_jump_value"
   ],
   "note": ""
  },
  {
   "property": "C18",
   "status": "partial",
   "theorems": [
    "Pymgrit.C18_history_partial",
    "Pymgrit.C18_distributed_partial",
    "Pymgrit.C18_history_nonzero",
    "Pymgrit.C18_zero_dropped"
   ],
   "note": "solve() filters the stored values by != 0, so an iteration whose value is exactly zero is missing from the returned history; full claim proved when no value is zero, refuted otherwise."
  },
  {
   "property": "C19",
   "status": "proved",
   "theorems": [
    "Pymgrit.C19_output_schedule"
   ],
   "note": ""
  },
  {
   "property": "C20",
   "status": "partial",
   "theorems": [
    "Pymgrit.C20_same_as_serial_partial",
    "Pymgrit.C20_process_count_partial",
    "Pymgrit.C20_float_partial",
    "Pymgrit.C20_adjacent_c_points",
    "Pymgrit.C20_stale",
    "Pymgrit.C20_right_iff",
    "Pymgrit.C20_right_iff_residual",
    "Pymgrit.C20_restart",
    "Pymgrit.C20_restart_else",
    "Pymgrit.C20_same_solution"
   ],
   "note": "Holds unless the last point of one process and the first point of the next are both C-points of a level (never for uniform coarsening by at least two) and the step between them depends on its start value. Excluded case: C20_adjacent_c_points gives a wrong solution; if only the finest level has such boundaries, C20_stale says what every run returns (the run on one process of the problem whose steps across these boundaries start from the initial guess), and C20_right_iff when this is the right solution. Not described: what is returned if a coarser level has such boundaries."
  },
  {
   "property": "C21",
   "status": "proved",
   "theorems": [
    "Pymgrit.C21_schedule_independent",
    "Pymgrit.C21_stale"
   ],
   "note": ""
  },
  {
   "property": "C22",
   "status": "proved",
   "theorems": [
    "Pymgrit.C22_terminates",
    "Pymgrit.C22_no_infinite_run",
    "Pymgrit.C22_stale"
   ],
   "note": ""
  },
  {
   "property": "C23",
   "status": "proved",
   "theorems": [
    "Pymgrit.C23_no_mismatch",
    "Pymgrit.C23_check"
   ],
   "note": ""
  },
  {
   "property": "C24",
   "status": "partial",
   "theorems": [
    "Pymgrit.C24_constructor",
    "Pymgrit.C24_documented_error",
    "Pymgrit.C24_accepts_partial",
    "Pymgrit.C24_one_point_grid",
    "Pymgrit.C24_parameters"
   ],
   "note": "Exact acceptance condition and first-error order proved, per process.  The literal claim (only documented checks) is false: a coarse grid of one point passes them and ends in an IndexError (C24_one_point_grid)."
  },
  {
   "property": "C25",
   "status": "proved",
   "theorems": [
    "Pymgrit.C25_cf_iter",
    "Pymgrit.C25_rejects",
    "Pymgrit.C25_used"
   ],
   "note": ""
  },
  {
   "property": "C26",
   "status": "proved",
   "theorems": [
    "Pymgrit.C26_hierarchy",
    "Pymgrit.C26_zero",
    "Pymgrit.C26_valid",
    "Pymgrit.C26_cpoints",
    "Pymgrit.C26_no_adjacent",
    "Pymgrit.C26_accepted"
   ],
   "note": ""
  },
  {
   "property": "C27",
   "status": "partial",
   "theorems": [
    "Pymgrit.C27_warning_partial",
    "Pymgrit.C27_wrong_warning",
    "Pymgrit.C27_index_error",
    "Pymgrit.C27_negative"
   ],
   "note": "Refuted: the warning compares with coarsening*level instead of coarsening^(level-1); a one-point coarse grid ends in an IndexError."
  },
  {
   "property": "C28",
   "status": "proved",
   "theorems": [
    "Pymgrit.C28_ranks",
    "Pymgrit.C28_grid",
    "Pymgrit.C28_sizes"
   ],
   "note": ""
  },
  {
   "property": "C29",
   "status": "partial",
   "theorems": [
    "Pymgrit.C29_type_error",
    "Pymgrit.C29_time_only_partial"
   ],
   "note": "Refuted for every split with two or more space processes; holds without spatial parallelism."
  },
  {
   "property": "C30",
   "status": "proved",
   "theorems": [
    "Pymgrit.C30",
    "Pymgrit.C30_tags"
   ],
   "note": "All configurations and all executions; events are read off the execution log."
  },
  {
   "property": "C31",
   "status": "partial",
   "theorems": [
    "Pymgrit.C31_partial",
    "Pymgrit.C31_clean_up",
    "Pymgrit.C31_counterexample"
   ],
   "note": "Refuted in general: with a time norm other than the maximum norm a process announces the end and iterates on. C31_partial: for norms below tol whenever all values are, no iteration message follows an announcement, in any execution; C31_clean_up: the clean-up sends only values the process had and leaves its own points unchanged."
  },
  {
   "property": "C32",
   "status": "partial",
   "theorems": [
    "Pymgrit.C32_partial",
    "Pymgrit.C32_norm_counterexample",
    "Pymgrit.C32_zero_cf_counterexample",
    "Pymgrit.C32_jump_counterexample"
   ],
   "note": "Refuted in three ways (other time norm; cf_iter 0; conv_crit 3): messages of the clean-up stay unreceived and the run does not end. C32_partial: without these three (conv_crit 2, cf_iter at least 1, norm below tol whenever all values are) every execution ends with all processes returned and all messages received."
  },
  {
   "property": "C33",
   "status": "partial",
   "theorems": [
    "Pymgrit.C33_partial",
    "Pymgrit.C33_counterexample"
   ],
   "note": "Refuted with spatial coarsening: the clean-up sends the unrestricted fine vector as coarse ghost value; right without spatial coarsening."
  },
  {
   "property": "C34",
   "status": "proved",
   "theorems": [
    "Pymgrit.C34_coarsest_solve",
    "Pymgrit.C34_whole_run",
    "Pymgrit.C34_one_level"
   ],
   "note": ""
  },
  {
   "property": "C35",
   "status": "proved",
   "theorems": [
    "Pymgrit.C35_window_value",
    "Pymgrit.C35_window_only",
    "Pymgrit.C35_in_range"
   ],
   "note": ""
  },
  {
   "property": "C36",
   "status": "proved",
   "theorems": [
    "Pymgrit.C36_fixed_point",
    "Pymgrit.C36_prefix",
    "Pymgrit.C36_prefix_weight_one",
    "Pymgrit.C36_finite_termination"
   ],
   "note": ""
  },
  {
   "property": "C37",
   "status": "proved",
   "theorems": [
    "Pymgrit.At.C37_rejects",
    "Pymgrit.At.C37_window_delivered"
   ],
   "note": ""
  },
  {
   "property": "C38",
   "status": "proved",
   "theorems": [
    "Pymgrit.C38_coarse_solve_count",
    "Pymgrit.C38_ends_relaxed"
   ],
   "note": ""
  },
  {
   "property": "C39",
   "status": "proved",
   "theorems": [
    "Pymgrit.C39_two_levels",
    "Pymgrit.C39_keeps"
   ],
   "note": ""
  },
  {
   "property": "C40",
   "status": "proved",
   "theorems": [
    "Pymgrit.C40_causal",
    "Pymgrit.C40_distributed"
   ],
   "note": ""
  },
  {
   "property": "C41",
   "status": "partial",
   "theorems": [
    "Pymgrit.C41_hangs",
    "Pymgrit.C41_raises",
    "Pymgrit.C41_accepted",
    "Pymgrit.C41_example"
   ],
   "note": "Refuted: such hierarchies are accepted by the constructor's checks and the run on one process waits forever for a message nobody sends; if process 0 holds no point of a level its constructor ends in an IndexError."
  },
  {
   "property": "C42",
   "status": "proved",
   "theorems": [
    "Pymgrit.Heap.C42_no_interference",
    "Pymgrit.Heap.C42_invariant",
    "Pymgrit.Heap.C42_clone",
    "Pymgrit.Heap.C42_clone_zero",
    "Pymgrit.Heap.C42_arithmetic",
    "Pymgrit.Heap.C42_scaling",
    "Pymgrit.Heap.C42_pack_unpack",
    "Pymgrit.Heap.C42_pair",
    "Pymgrit.Heap.C42_inplace_alias",
    "Pymgrit.Heap.C42_shared_unpack"
   ],
   "note": "The last two theorems show why the hypotheses are needed: in-place writes by user code alias for rebinding classes, and set_values(get_values()) shares for the copying classes."
  },
  {
   "property": "C43",
   "status": "partial",
   "theorems": [
    "Pymgrit.Machine.C43_flatten_partial",
    "Pymgrit.Machine.C43_empty_back"
   ],
   "note": "Refuted when the back part is empty; proved otherwise."
  },
  {
   "property": "C44",
   "status": "proved",
   "theorems": [
    "Pymgrit.Machine.C44_restrict_interpolate",
    "Pymgrit.Machine.C44_fine_size",
    "Pymgrit.Machine.C44_needs_double"
   ],
   "note": ""
  },
  {
   "property": "C45",
   "status": "partial",
   "theorems": [
    "Pymgrit.Apps.C45_scheme_partial",
    "Pymgrit.Apps.C45_midpoint_iff",
    "Pymgrit.Apps.C45_names",
    "Pymgrit.Apps.C45_counterexample",
    "Pymgrit.Apps.C45_stable"
   ],
   "note": "Proved for BE, FE, TR for all constants; MR uses the constant -1 whatever lambda is, so it is right exactly for lambda = -1 (or trivial cases)."
  },
  {
   "property": "C46",
   "status": "proved",
   "theorems": [
    "Pymgrit.Apps.C46_stencil",
    "Pymgrit.Apps.C46_wellposed",
    "Pymgrit.Apps.C46_max",
    "Pymgrit.Apps.C46_max_no_source",
    "Pymgrit.Apps.C46_norm",
    "Pymgrit.Apps.C46_positive"
   ],
   "note": ""
  },
  {
   "property": "C47",
   "status": "proved",
   "theorems": [
    "Pymgrit.Apps.C47_entries",
    "Pymgrit.Apps.Heat2D.C47_stencil"
   ],
   "note": ""
  },
  {
   "property": "C48",
   "status": "partial",
   "theorems": [
    "Pymgrit.Apps.Heat2D.C48_start",
    "Pymgrit.Apps.Heat2D.C48_implicit_partial",
    "Pymgrit.Apps.Heat2D.C48_forward",
    "Pymgrit.Apps.Heat2D.C48_forward_iff",
    "Pymgrit.Apps.Heat2D.C48_forward_counterexample"
   ],
   "note": "Backward Euler and Crank-Nicolson keep the boundary values; forward Euler adds the old boundary values to them (refuted)."
  },
  {
   "property": "C49",
   "status": "proved",
   "theorems": [
    "Pymgrit.Apps.C49_stencil",
    "Pymgrit.Apps.C49_wellposed",
    "Pymgrit.Apps.C49_mass",
    "Pymgrit.Apps.C49_max",
    "Pymgrit.Apps.C49_norm"
   ],
   "note": ""
  },
  {
   "property": "C50",
   "status": "proved",
   "theorems": [
    "Pymgrit.Apps.C50_quadratic",
    "Pymgrit.Apps.C50_steady",
    "Pymgrit.Apps.C50_wellposed",
    "Pymgrit.Apps.C50_start"
   ],
   "note": ""
  },
  {
   "property": "C51",
   "status": "partial",
   "theorems": [
    "Pymgrit.Apps.AllenCahn.C51_loop",
    "Pymgrit.Apps.AllenCahn.C51_bounded_partial",
    "Pymgrit.Apps.AllenCahn.C51_no_iterations",
    "Pymgrit.Apps.AllenCahn.C51_imex",
    "Pymgrit.Apps.C51_counterexample"
   ],
   "note": "newton_maxiter is ignored by the loop: refuted by an exact cycle at the default parameters; when the loop ends, the result satisfies the tolerance."
  },
  {
   "property": "C52",
   "status": "proved",
   "theorems": [
    "Pymgrit.Apps.C52_equilibrium",
    "Pymgrit.Apps.C52_zero_step",
    "Pymgrit.Apps.C52_only_equilibrium",
    "Pymgrit.Apps.C52_runge_kutta"
   ],
   "note": ""
  },
  {
   "property": "C53",
   "status": "proved",
   "theorems": [
    "Pymgrit.C53_time_grid",
    "Pymgrit.C53_required"
   ],
   "note": ""
  },
  {
   "property": "C54",
   "status": "proved",
   "theorems": [
    "Pymgrit.C54_one_writer",
    "Pymgrit.C54_one_writer_time"
   ],
   "note": ""
  },
  {
   "property": "C55",
   "status": "proved",
   "theorems": [
    "Pymgrit.C55_index_ranges"
   ],
   "note": ""
  },
  {
   "property": "C56",
   "status": "partial",
   "theorems": [
    "Pymgrit.C56_resume",
    "Pymgrit.C56_keeps_exact",
    "Pymgrit.C56_history_partial",
    "Pymgrit.C56_stale_history"
   ],
   "note": "The solution claims hold; the returned history of a second solve() may contain entries of the first, refuted by C56_stale_history."
  },
  {
   "property": "C57",
   "status": "partial",
   "theorems": [
    "Pymgrit.At.C37_attribute_error",
    "Pymgrit.At.C37_value_if_created"
   ],
   "note": "Refuted for every problem: g_coarsest is never created, so every process with coarsest points raises in its first coarsest solve.  Had it been created, the computed values would be those of the serial run (k >= 2)."
  },
  {
   "property": "C58",
   "status": "proved",
   "theorems": [
    "Pymgrit.Apps.C58_two_steps",
    "Pymgrit.Apps.C58_start",
    "Pymgrit.Apps.C58_linear",
    "Pymgrit.Apps.C58_linear_pair"
   ],
   "note": ""
  },
  {
   "property": "C59",
   "status": "proved",
   "theorems": [
    "Pymgrit.Apps.Heat2D.C59_wellposed",
    "Pymgrit.Apps.Heat2D.C59_wellposed_forward",
    "Pymgrit.Apps.Heat2D.C59_max"
   ],
   "note": ""
  },
  {
   "property": "C60",
   "status": "proved",
   "theorems": [
    "Pymgrit.Apps.AllenCahn.C60_stencil",
    "Pymgrit.Apps.AllenCahn.C60_stationary"
   ],
   "note": ""
  },
  {
   "property": "C61",
   "status": "partial",
   "theorems": [
    "Pymgrit.Petsc.C61_close",
    "Pymgrit.Petsc.C61_history_partial",
    "Pymgrit.Petsc.C61_reused",
    "Pymgrit.Petsc.C61_counterexample",
    "Pymgrit.Petsc.C61_results_differ"
   ],
   "note": "Refuted for step sizes that differ by less than the tolerance of numpy's isclose; proved when the occurring step sizes are equal or not close."
  },
  {
   "property": "C62",
   "status": "partial",
   "theorems": [
    "Pymgrit.Petsc.C62_boundary",
    "Pymgrit.Petsc.C62_exchanged",
    "Pymgrit.Petsc.C62_stencil_partial",
    "Pymgrit.Petsc.C62_counterexample"
   ],
   "note": "The two spacings are exchanged: right for equal spacings only."
  },
  {
   "property": "C63",
   "status": "partial",
   "theorems": [
    "Pymgrit.Petsc.C63_residual",
    "Pymgrit.Petsc.C63_jacobian_partial",
    "Pymgrit.Petsc.C63_defect",
    "Pymgrit.Petsc.C63_counterexample"
   ],
   "note": "Right for equal spacings; refuted otherwise (the couplings of each field use one spacing for both directions)."
  },
  {
   "property": "C64",
   "status": "proved",
   "theorems": [
    "Pymgrit.C64_tolerance"
   ],
   "note": "For conv_crit 2 with cf_iter at least 1 and a norm below tol whenever all values are; neighbouring C-points at a process boundary excluded."
  },
  {
   "property": "C65",
   "status": "proved",
   "theorems": [
    "Pymgrit.C65_stop_order"
   ],
   "note": "Same configurations as C32_partial."
  },
  {
   "property": "C66",
   "status": "proved",
   "theorems": [
    "Pymgrit.C66_schedule_independent"
   ],
   "note": "Same configurations as C32_partial."
  },
  {
   "property": "C67",
   "status": "proved",
   "theorems": [
    "Pymgrit.C67_set_contents"
   ],
   "note": "CPython's hash tables as modelled in Verif.PySet; includes that the probe loop ends."
  },
  {
   "property": "C68",
   "status": "proved",
   "theorems": [
    "Pymgrit.C68_ideal_coarse",
    "Pymgrit.C68_distributed"
   ],
   "note": ""
  },
  {
   "property": "C69",
   "status": "proved",
   "theorems": [
    "Pymgrit.C69_two_level_update",
    "Pymgrit.C69_parareal",
    "Pymgrit.C69_fine_points"
   ],
   "note": "With CF-relaxation: no two coarse points adjacent."
  },
  {
   "property": "C70",
   "status": "proved",
   "theorems": [
    "Pymgrit.C70_cycles_agree"
   ],
   "note": ""
  },
  {
   "property": "C71",
   "status": "proved",
   "theorems": [
    "Pymgrit.C71_a_posteriori",
    "Pymgrit.C71_tolerance",
    "Pymgrit.C71_distributed",
    "Pymgrit.C71_stopped_distributed",
    "Pymgrit.C71_solve",
    "Pymgrit.C71_solve_tolerance",
    "Pymgrit.C71_solve_heat_1d",
    "Pymgrit.Apps.Heat2D.C71_solve_heat_2d"
   ],
   "note": "Exact arithmetic in a normed space; C71_solve with the factor that belongs to the norm in time, and for the heat equation."
  },
  {
   "property": "C72",
   "status": "proved",
   "theorems": [
    "Pymgrit.C72_two_level_bound",
    "Pymgrit.C72_distributed"
   ],
   "note": "Exact arithmetic in a normed space."
  },
  {
   "property": "C73",
   "status": "proved",
   "theorems": [
    "Pymgrit.C73_equivariant",
    "Pymgrit.C73_equivariant_nested",
    "Pymgrit.C73_distributed"
   ],
   "note": ""
  },
  {
   "property": "C74",
   "status": "proved",
   "theorems": [
    "Pymgrit.C74_conserved",
    "Pymgrit.C74_conserved_nested",
    "Pymgrit.C74_subspace",
    "Pymgrit.C74_distributed"
   ],
   "note": ""
  },
  {
   "property": "C75",
   "status": "proved",
   "theorems": [
    "Pymgrit.C75_same_result",
    "Pymgrit.C75_serial_result"
   ],
   "note": ""
  },
  {
   "property": "C76",
   "status": "proved",
   "theorems": [
    "Pymgrit.C76_all_or_none",
    "Pymgrit.C76_exception",
    "Pymgrit.C76_crash_blocks"
   ],
   "note": "No hypothesis on the configuration."
  },
  {
   "property": "C77",
   "status": "proved",
   "theorems": [
    "Pymgrit.C77_early_wait",
    "Pymgrit.C77_early_wait_local"
   ],
   "note": "Same configurations as C20_same_as_serial_partial and C32_partial."
  },
  {
   "property": "C78",
   "status": "proved",
   "theorems": [
    "Pymgrit.C78_calls",
    "Pymgrit.C78_forward_in_time"
   ],
   "note": ""
  },
  {
   "property": "C79",
   "status": "proved",
   "theorems": [
    "Pymgrit.Mesh.C79_all",
    "Pymgrit.Mesh.C79_new",
    "Pymgrit.Mesh.C79_raises",
    "Pymgrit.Mesh.C79_compute_raises"
   ],
   "note": ""
  },
  {
   "property": "C80",
   "status": "partial",
   "theorems": [
    "Pymgrit.Mesh.C80_linear_partial",
    "Pymgrit.Mesh.C80_gap",
    "Pymgrit.Mesh.C80_not_constant",
    "Pymgrit.Mesh.C80_weights"
   ],
   "note": "Missing: points that lie outside of the triangle found for them (weights clipped at zero: constants are not reproduced) and points between the two regions (keep unrelated coarse values); both refuted."
  },
  {
   "property": "C81",
   "status": "partial",
   "theorems": [
    "Pymgrit.Mesh.C81_read",
    "Pymgrit.Mesh.C81_nodes_partial",
    "Pymgrit.Mesh.C81_dropped"
   ],
   "note": "Refuted for nodes whose first coordinate is written 0, 1 or 2: they are dropped."
  },
  {
   "property": "C82",
   "status": "proved",
   "theorems": [
    "Pymgrit.Apps.Heat2D.C82_implicit",
    "Pymgrit.Apps.Heat2D.C82_scheme",
    "Pymgrit.Apps.Heat2D.C82_exact"
   ],
   "note": "Exact arithmetic."
  },
  {
   "property": "C83",
   "status": "partial",
   "theorems": [
    "Pymgrit.GetDP.C83_read",
    "Pymgrit.GetDP.C83_last",
    "Pymgrit.GetDP.C83_round_trip",
    "Pymgrit.GetDP.C83_decreasing",
    "Pymgrit.GetDP.C83_truncated_partial",
    "Pymgrit.GetDP.C83_broadcast"
   ],
   "note": "Refuted for files that end after the first value of a solution (it is taken for all unknowns); all else proved, for conversions between numbers and text that undo each other."
  },
  {
   "property": "C84",
   "status": "partial",
   "theorems": [
    "Pymgrit.GetDP.C84_values_only",
    "Pymgrit.GetDP.C84_step",
    "Pymgrit.GetDP.C84_solver",
    "Pymgrit.GetDP.C84_time_step",
    "Pymgrit.GetDP.C84_time_unchecked"
   ],
   "note": "Refuted: that the result belongs to t_stop (the time in the file is not looked at).  All else proved."
  },
  {
   "property": "C85",
   "status": "partial",
   "theorems": [
    "Pymgrit.C85_values",
    "Pymgrit.C85_distributed",
    "Pymgrit.C85_next_iteration_partial",
    "Pymgrit.C85_counterexample"
   ],
   "note": "Refuted at C-points; proved for the visible part, for all quantities at F-points, and for all quantities one iteration later (one CF-relaxation or more, weight one)."
  },
  {
   "property": "C86",
   "status": "proved",
   "theorems": [
    "Pymgrit.Apps.AllenCahn.C86_implicit",
    "Pymgrit.Apps.AllenCahn.C86_crank_nicolson",
    "Pymgrit.Apps.AllenCahn.C86_imex",
    "Pymgrit.Apps.AllenCahn.C86_newton_matrix"
   ],
   "note": "Exact arithmetic."
  },
  {
   "property": "C87",
   "status": "proved",
   "theorems": [
    "Pymgrit.C87_objects_as_values",
    "Pymgrit.C87_results",
    "Pymgrit.C87_in_place_counterexample"
   ],
   "note": "Covers functions of the user that do not change their argument (needed: counterexample); a finest step that returns its argument only on one process."
  },
  {
   "property": "C88",
   "status": "proved",
   "theorems": [
    "Pymgrit.C88_dahlquist",
    "Pymgrit.C88_dahlquist_nested"
   ],
   "note": "Exact arithmetic."
  },
  {
   "property": "C89",
   "status": "proved",
   "theorems": [
    "Pymgrit.C89_symmetric",
    "Pymgrit.C89_symmetric_nested",
    "Pymgrit.C89_heat_1d",
    "Pymgrit.C89_heat_1d_nested"
   ],
   "note": "Exact arithmetic; the linear solver is exact."
  },
  {
   "property": "C90",
   "status": "proved",
   "theorems": [
    "Pymgrit.Apps.Heat2D.C90_heat_2d"
   ],
   "note": "Exact arithmetic; the linear solver is exact."
  },
  {
   "property": "C91",
   "status": "proved",
   "theorems": [
    "Pymgrit.Orbit.C91_jacobi",
    "Pymgrit.Orbit.C91_reversible",
    "Pymgrit.Orbit.C91_documentation"
   ],
   "note": "About exact solutions of the equation; solve_ivp itself is not modelled."
  },
  {
   "property": "C92",
   "status": "proved",
   "theorems": [
    "Pymgrit.C92_superposition",
    "Pymgrit.C92_error"
   ],
   "note": "Exact arithmetic; compared after the same number of iterations."
  },
  {
   "property": "C93",
   "status": "proved",
   "theorems": [
    "Pymgrit.C93_multilevel",
    "Pymgrit.C93_nested",
    "Pymgrit.C93_rate_V",
    "Pymgrit.C93_rate_F",
    "Pymgrit.C93_rate_over",
    "Pymgrit.C93_dahlquist",
    "Pymgrit.C93_dahlquist_nested",
    "Pymgrit.C93_symmetric",
    "Pymgrit.C93_symmetric_nested",
    "Pymgrit.C93_heat_1d",
    "Pymgrit.C93_heat_1d_nested",
    "Pymgrit.Apps.Heat2D.C93_heat_2d"
   ],
   "note": "Exact arithmetic; the linear solver is exact. For V-cycles on four or more and F-cycles on five or more levels the bound exceeds one and says nothing about convergence."
  },
  {
   "property": "C94",
   "status": "proved",
   "theorems": [
    "Pymgrit.C94_bdf1",
    "Pymgrit.C94_bdf1_nested"
   ],
   "note": "Exact arithmetic; the linear solver is exact. The same dtau on all levels."
  },
  {
   "property": "C95",
   "status": "proved",
   "theorems": [
    "Pymgrit.C95_prefix",
    "Pymgrit.C95_finite_termination",
    "Pymgrit.C95_no_relaxation",
    "Pymgrit.C95_distributed",
    "Pymgrit.C95_no_relaxation_distributed"
   ],
   "note": "Exact arithmetic."
  },
  {
   "property": "C96",
   "status": "partial",
   "theorems": [
    "Pymgrit.C96_stationary",
    "Pymgrit.C96_lossless",
    "Pymgrit.C96_lossy",
    "Pymgrit.C96_lossless_distributed",
    "Pymgrit.C96_lossy_partial",
    "Pymgrit.C96_counterexample",
    "Pymgrit.C96_counterexample_distributed",
    "Pymgrit.C96_weight_counterexample"
   ],
   "note": "Proved for transfers that lose nothing (any weight, any cf_iter) and for transfers that map zero to zero with weight one and cf_iter >= 1; refuted for cf_iter = 0 with a restriction that loses information and for weight two with an interpolation that doubles."
  },
  {
   "property": "C97",
   "status": "proved",
   "theorems": [
    "Pymgrit.C97_jump",
    "Pymgrit.C97_dahlquist",
    "Pymgrit.C97_dahlquist_tolerance",
    "Pymgrit.C97_symmetric",
    "Pymgrit.C97_heat_1d",
    "Pymgrit.C97_heat_1d_tolerance"
   ],
   "note": "Exact arithmetic; the linear solver is exact."
  },
  {
   "property": "C98",
   "status": "proved",
   "theorems": [
    "Pymgrit.C98_iterations",
    "Pymgrit.C98_dahlquist",
    "Pymgrit.C98_dahlquist_nested",
    "Pymgrit.C98_symmetric",
    "Pymgrit.C98_symmetric_nested",
    "Pymgrit.C98_heat_1d",
    "Pymgrit.C98_heat_1d_nested"
   ],
   "note": "Exact arithmetic; the linear solver is exact."
  },
  {
   "property": "C99",
   "status": "proved",
   "theorems": [
    "Pymgrit.Space.C99_coarse_point",
    "Pymgrit.Space.C99_midpoint",
    "Pymgrit.Space.C99_sizes",
    "Pymgrit.Space.C99_linear",
    "Pymgrit.Space.C99_adjoint",
    "Pymgrit.Space.C99_galerkin",
    "Pymgrit.Space.C99_not_inverse",
    "Pymgrit.Space.C99_bounds",
    "Pymgrit.Space.C99_finite_termination",
    "Pymgrit.Space.C99_no_relaxation"
   ],
   "note": "Exact arithmetic."
  }
 ]
}