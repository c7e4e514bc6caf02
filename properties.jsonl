{"id": "C01", "title": "Even block distribution of the fine time grid", "statement": "For nt time points on p <= nt time processes, every process owns at least one fine time point, the block sizes add up to nt, any two block sizes differ by at most one, and the blocks are contiguous, disjoint and in rank order, so every fine time point is owned by exactly one process.", "quantifier": "all nt >= 1 and all communicator sizes 1 <= p <= nt, all ranks", "why_tests_cant": "A test fixes a handful of (nt, p) pairs; off-by-one errors in the remainder handling only show for particular residues.", "anchors": ["src/pymgrit/core/mgrit.py:split_into", "src/pymgrit/core/mgrit.py:split_points", "src/pymgrit/core/mgrit.py:setup_points_and_comm_info"]}
{"id": "C02", "title": "Every coarse time point has exactly one owner", "statement": "On every level of the hierarchy each time point is assigned to exactly one process, namely the process whose fine block contains that time; processes may own no point on a coarse level, but no point is lost or duplicated.", "quantifier": "all hierarchies of strictly increasing nested time grids, any number of levels, all communicator sizes p <= nt, all levels and ranks", "why_tests_cant": "Depends on the interplay of arbitrary (non-uniform) coarsening with arbitrary block boundaries; tests check one 65/17/5 grid on 7 processes.", "anchors": ["src/pymgrit/core/mgrit.py:setup_points_and_comm_info"]}
{"id": "C03", "title": "Communication partners are the true temporal neighbours", "statement": "On every level, a process that owns points sends to exactly the process owning the next later time point (or to nobody if it owns the last one) and receives from exactly the process owning the preceding point (or from nobody if it owns the first one). p's send partner is q if and only if q's receive partner is p, even when processes in between own no points.", "quantifier": "all hierarchies of strictly increasing nested grids containing the initial time, all communicator sizes, levels and ranks", "why_tests_cant": "Processes without points on coarse levels create skip-links; the number of such configurations is unbounded.", "anchors": ["src/pymgrit/core/mgrit.py:setup_points_and_comm_info"]}
{"id": "C04", "title": "Each conditional send has exactly one matching conditional receive", "statement": "For every kind of exchange (before F-relaxation, inside F-relaxation, C-relaxation, FAS residual fine and coarse, coarsest solve, residual evaluation) a process posts a send on a level exactly when the owner of the next point posts the corresponding receive.", "quantifier": "all hierarchies of strictly increasing nested grids containing the initial time, all communicator sizes, all levels and neighbour pairs", "why_tests_cant": "A mismatch shows up as a hang only for the specific grid/process-count combination that triggers it.", "anchors": ["src/pymgrit/core/mgrit.py:setup_points_and_comm_info", "src/pymgrit/core/mgrit.py:f_relax", "src/pymgrit/core/mgrit.py:c_relax", "src/pymgrit/core/mgrit.py:fas_residual", "src/pymgrit/core/mgrit.py:forward_solve", "src/pymgrit/core/mgrit.py:compute_residual"]}
{"id": "C05", "title": "C/F classification is a partition matching the coarse grid", "statement": "On each process and level the local points are split into C-points and F-points without overlap or omission; the C-points are exactly the points whose time belongs to the next coarser grid (all points on the coarsest level), and the k-th local C-point and the k-th local point of the next level have the same time.", "quantifier": "all hierarchies of strictly increasing nested grids, all communicator sizes, levels and ranks", "why_tests_cant": "Restriction, FAS right-hand side and correction pair points by position, so the claim has to hold for every grid and block boundary.", "anchors": ["src/pymgrit/core/mgrit.py:setup_points_and_comm_info", "src/pymgrit/core/mgrit.py:fas_residual", "src/pymgrit/core/mgrit.py:error_correction", "src/pymgrit/core/mgrit.py:nested_iteration"]}
{"id": "C06", "title": "F-point processing order never affects the result", "statement": "The order in which a process visits its F-points always visits each F-point after its preceding F-point, for every iteration order of the Python set the F-points are taken from.", "quantifier": "all sets of local F-points and all set iteration orders", "why_tests_cant": "The order depends on hashing and table size, i.e. on the absolute indices owned by a process; tests see a few orders.", "anchors": ["src/pymgrit/core/mgrit.py:setup_points_and_comm_info", "src/pymgrit/core/mgrit.py:f_relax"]}
{"id": "C07", "title": "F-relaxation postcondition", "statement": "After F-relaxation on a level, every F-point value equals the (FAS) time step of its predecessor value, every C-point is unchanged, no other level is touched, and repeating the relaxation changes nothing.", "quantifier": "all states, levels, grids, step functions and right-hand sides", "why_tests_cant": "Universally quantified over application step functions and iterates.", "anchors": ["src/pymgrit/core/mgrit.py:f_relax"]}
{"id": "C08", "title": "C-relaxation postcondition", "statement": "After C-relaxation with weight w, every C-point other than the initial point equals w times the (FAS) step of its predecessor plus (1-w) times its old value, where, if no two C-points are adjacent, the predecessor value is the one before the relaxation; F-points and the initial point are unchanged.", "quantifier": "all states, levels, grids, step functions, weights", "why_tests_cant": "Universally quantified over user step functions, weights and iterates.", "anchors": ["src/pymgrit/core/mgrit.py:c_relax"]}
{"id": "C09", "title": "Coarsest-level solve is sequential time stepping", "statement": "The coarsest solve leaves a solution that satisfies the (FAS) time-stepping recurrence at every point with the first value unchanged, and that solution is the only one with this first value.", "quantifier": "all states, grids, step functions and right-hand sides, any number of points and processes", "why_tests_cant": "Universally quantified over lengths, step functions and data.", "anchors": ["src/pymgrit/core/mgrit.py:forward_solve"]}
{"id": "C10", "title": "One-level solve equals time stepping", "statement": "With a single level the solution after the constructor with nested iteration, or after any iteration, is the sequential time-stepping solution started from vector_t_start, the reported residual is zero and the returned convergence history is empty.", "quantifier": "all applications, grids, max_iter >= 1, with or without nested iteration", "why_tests_cant": "Universally quantified over applications and grid sizes.", "anchors": ["src/pymgrit/core/mgrit.py:__init__", "src/pymgrit/core/mgrit.py:iteration", "src/pymgrit/core/mgrit.py:forward_solve", "src/pymgrit/core/mgrit.py:convergence_criterion", "src/pymgrit/core/mgrit.py:solve"]}
{"id": "C11", "title": "The initial value is never changed", "statement": "The solution at the first fine time point equals vector_t_start after construction, after nested iteration, and after any number of iterations of any cycle.", "quantifier": "all hierarchies whose grids contain the initial time, all cycles, weights, relaxation counts, transfers, step functions, iteration counts", "why_tests_cant": "Must hold through every code path that writes C-points on every level.", "anchors": ["src/pymgrit/core/mgrit.py:create_u_v_g", "src/pymgrit/core/mgrit.py:iteration", "src/pymgrit/core/mgrit.py:nested_iteration", "src/pymgrit/core/mgrit.py:error_correction", "src/pymgrit/core/mgrit.py:c_relax"]}
{"id": "C12", "title": "The sequential solution is a fixed point", "statement": "If the current fine-grid iterate is the sequential time-stepping solution then a further MGRIT iteration (V or F cycle, any number of levels, any relaxation count and weight) leaves it unchanged and its reported residual is zero.", "quantifier": "all numbers of levels, grids, nonlinear step functions on each level, transfers mapping zero to zero, weights, relaxation counts, cycle types", "why_tests_cant": "Tests run a few linear problems to a tolerance; the claim is about arbitrary nonlinear steps and depth.", "anchors": ["src/pymgrit/core/mgrit.py:iteration", "src/pymgrit/core/mgrit.py:fas_residual", "src/pymgrit/core/mgrit.py:error_correction"]}
{"id": "C13", "title": "Zero residual means solved", "statement": "If after an iteration the reported global residual is zero then the fine-grid iterate is exactly the sequential time-stepping solution at every time point (C- and F-points).", "quantifier": "all hierarchies, step functions, iterates, time norms", "why_tests_cant": "The residual is only evaluated at C-points; that this suffices needs an argument for all iterates.", "anchors": ["src/pymgrit/core/mgrit.py:compute_residual", "src/pymgrit/core/mgrit.py:convergence_criterion", "src/pymgrit/core/mgrit.py:iteration"]}
{"id": "C14", "title": "Exactness of a growing prefix / finite termination", "statement": "With transfer operators that copy, every iteration extends the prefix of fine time points that coincide with the sequential solution by at least one coarse interval (by cf_iter+1 intervals for unit relaxation weight), so after as many iterations as there are coarse intervals the iterate is the sequential solution.", "quantifier": "all numbers of levels, grids, nonlinear step functions on all levels, cycle types, relaxation counts, initial guesses", "why_tests_cant": "Sequence-to-the-limit statement over arbitrary nonlinear problems and depths.", "anchors": ["src/pymgrit/core/mgrit.py:iteration", "src/pymgrit/core/mgrit.py:fas_residual", "src/pymgrit/core/mgrit.py:forward_solve", "src/pymgrit/core/mgrit.py:error_correction"]}
{"id": "C15", "title": "Skipping the leading F-relaxation is harmless", "statement": "From the second iteration on, omitting the F-relaxation at the start of a fine-level iteration gives the same result as performing it, because each iteration ends F-relaxed and evaluating the convergence criterion does not change the solution.", "quantifier": "all hierarchies, iterates and iteration numbers", "why_tests_cant": "Equality of two executions for all iterates.", "anchors": ["src/pymgrit/core/mgrit.py:iteration", "src/pymgrit/core/mgrit.py:solve", "src/pymgrit/core/mgrit.py:convergence_criterion"]}
{"id": "C16", "title": "Reported residual is the full space-time residual", "statement": "The value recorded after each iteration under the global residual criterion equals the selected time norm (1, 2 or infinity) of the spatial norms of the residual at all fine time points after the first, although only C-points are evaluated.", "quantifier": "all hierarchies, iterates, step functions and the three time norms", "why_tests_cant": "Needs that the residual vanishes at all F-points for every iterate.", "anchors": ["src/pymgrit/core/mgrit.py:compute_residual", "src/pymgrit/core/mgrit.py:convergence_criterion"]}
{"id": "C17", "title": "Stopping rule and iteration bound", "statement": "solve() performs at most max_iter iterations; with a global criterion it stops exactly after the first iteration whose recorded value is below tol, or after max_iter iterations if there is none.", "quantifier": "all max_iter, tol and sequences of convergence values", "why_tests_cant": "Quantifies over all convergence histories.", "anchors": ["src/pymgrit/core/mgrit.py:solve"]}
{"id": "C18", "title": "Returned convergence history", "statement": "The history returned by solve() lists the recorded values of the performed iterations in order, one per iteration.", "quantifier": "all convergence histories, including exact zeros and repeated calls of solve()", "why_tests_cant": "Only fails for histories with exact zeros or repeated solves, which tests do not sample.", "anchors": ["src/pymgrit/core/mgrit.py:solve", "src/pymgrit/core/mgrit.py:__init__"]}
{"id": "C19", "title": "Output function call schedule", "statement": "With output_lvl 0 the output function is never called; with 1 it is called exactly once per solve(), after the last iteration; with 2 it is called once after setup and once after every iteration and at no other time; without an output function nothing is called.", "quantifier": "all output levels, histories and iteration counts", "why_tests_cant": "Quantifies over all histories.", "anchors": ["src/pymgrit/core/mgrit.py:__init__", "src/pymgrit/core/mgrit.py:solve"]}
{"id": "C20", "title": "Process-count independence", "statement": "With a global criterion, the distributed solve on p time processes computes, at every owned time point on every level, bitwise the same values as the solve on one process, the same recorded history and the same number of iterations.", "quantifier": "all grids, levels, p <= nt, step functions and vector operations (no algebraic laws assumed), cycles, weights, relaxation counts, nested iteration on/off, residual and jump criterion", "why_tests_cant": "Number of grid/process combinations and step functions is unbounded.", "anchors": ["src/pymgrit/core/mgrit.py:f_relax", "src/pymgrit/core/mgrit.py:c_relax", "src/pymgrit/core/mgrit.py:fas_residual", "src/pymgrit/core/mgrit.py:forward_solve", "src/pymgrit/core/mgrit.py:error_correction", "src/pymgrit/core/mgrit.py:nested_iteration", "src/pymgrit/core/mgrit.py:convergence_criterion", "src/pymgrit/core/mgrit.py:solve"]}
{"id": "C21", "title": "Schedule independence", "statement": "The outcome of a distributed run does not depend on the relative speed of processes or on message delivery timing: every maximal execution ends in the same final state.", "quantifier": "all interleavings of process steps and message deliveries, all process counts and problems", "why_tests_cant": "The number of interleavings is unbounded; MPI runs sample one.", "anchors": ["src/pymgrit/core/mgrit.py:send", "src/pymgrit/core/mgrit.py:receive", "src/pymgrit/core/mgrit.py:solve"]}
{"id": "C22", "title": "Deadlock freedom and no leftover messages (global criterion)", "statement": "A distributed construction plus solve with a global criterion always terminates on every process, in every interleaving, even if sends complete only when received, and at the end every message sent has been received.", "quantifier": "all interleavings, nested grids containing the initial time, process counts, problems, max_iter, tol", "why_tests_cant": "A deadlock needs a specific grid/process combination and schedule.", "anchors": ["src/pymgrit/core/mgrit.py:send", "src/pymgrit/core/mgrit.py:receive", "src/pymgrit/core/mgrit.py:clean_up", "src/pymgrit/core/mgrit.py:solve"]}
{"id": "C23", "title": "Messages are matched to the right receive although tags repeat", "statement": "Every receive obtains the value that the neighbour sent for the same exchange on the same level in the same sweep, although tag ranges are shared between levels and would collide between kinds of exchange after 50000 messages.", "quantifier": "all run lengths, levels and exchanges", "why_tests_cant": "Collisions need very long runs or particular level structures.", "anchors": ["src/pymgrit/core/mgrit.py:send", "src/pymgrit/core/mgrit.py:receive", "src/pymgrit/core/mgrit.py:__init__"]}
{"id": "C24", "title": "Constructor accepts exactly the valid configurations", "statement": "Mgrit(...) raises an exception if and only if one of the documented checks fails: number of transfers, grid sizes, cycle type, output level, nestedness of the grids, time norm, criterion, cf_iter, process count; the reported error is that of the first failing check.", "quantifier": "all argument combinations", "why_tests_cant": "Decision logic over the full product of argument values.", "anchors": ["src/pymgrit/core/mgrit.py:__init__"]}
{"id": "C25", "title": "cf_iter normalisation", "statement": "An integer cf_iter is used on every level; a list is used level by level and must cover all levels but the coarsest; anything else is rejected.", "quantifier": "all integers, lists and level counts", "why_tests_cant": "Decision logic over unbounded lists.", "anchors": ["src/pymgrit/core/mgrit.py:__init__", "src/pymgrit/core/mgrit.py:iteration"]}
{"id": "C26", "title": "simple_setup_problem builds nested hierarchies", "statement": "simple_setup_problem(problem, level, coarsening) with coarsening >= 1 returns level problems; the grid of problem l consists of the points of the original grid at multiples of coarsening^l, it starts at the same initial time, has ceil(nt/coarsening^l) points and passes the nestedness checks of Mgrit.", "quantifier": "all grids, level >= 1, coarsening >= 1", "why_tests_cant": "Unbounded in levels and coarsening factor.", "anchors": ["src/pymgrit/core/simple_setup_problem.py:simple_setup_problem", "src/pymgrit/core/mgrit.py:__init__"]}
{"id": "C27", "title": "One-point coarsest grid is announced", "statement": "simple_setup_problem warns if and only if the coarsest grid consists of a single time point, and a hierarchy with a one-point coarse grid is reported by the solver with an intelligible error.", "quantifier": "all grids, levels and coarsening factors", "why_tests_cant": "The warning formula is wrong only for some (level, coarsening, nt).", "anchors": ["src/pymgrit/core/simple_setup_problem.py:simple_setup_problem", "src/pymgrit/core/mgrit.py:__init__"]}
{"id": "C28", "title": "Space/time communicator split is a grid", "statement": "split_communicator(comm, s) places every process in one space and one time communicator; two processes share both only if they are the same process; if s divides the size then all space communicators have s and all time communicators size/s members and the world rank is time_rank*s + space_rank.", "quantifier": "all communicator sizes, splits s >= 1 and ranks", "why_tests_cant": "Unbounded sizes.", "anchors": ["src/pymgrit/core/split.py:split_communicator"]}
{"id": "C29", "title": "Global criterion with spatial parallelism", "statement": "With a space-time communicator split, evaluating a global convergence criterion works on every process and yields the norm over the time points, each counted once.", "quantifier": "all world sizes and splits", "why_tests_cant": "Tests run without spatial parallelism.", "anchors": ["src/pymgrit/core/mgrit.py:convergence_criterion", "src/pymgrit/core/split.py:split_communicator"]}
{"id": "C30", "title": "Local criterion: processes finish in rank order", "statement": "Under a local criterion a process announces that it is finished in an iteration only if all processes owning earlier times have announced it in the same or an earlier iteration.", "quantifier": "all schedules, convergence value sequences and process counts", "why_tests_cant": "Depends on all per-process convergence histories.", "anchors": ["src/pymgrit/core/mgrit.py:convergence_criterion"]}
{"id": "C31", "title": "Local criterion: an announced finish is a finish", "statement": "Under a local criterion a process that has announced being finished performs no further iteration and sends no further changed values.", "quantifier": "all per-process convergence values, time norms and tolerances", "why_tests_cant": "The announcement tests each value against tol, the stop tests their norm; only particular values separate them.", "anchors": ["src/pymgrit/core/mgrit.py:convergence_criterion", "src/pymgrit/core/mgrit.py:solve", "src/pymgrit/core/mgrit.py:clean_up", "src/pymgrit/core/mgrit.py:send"]}
{"id": "C32", "title": "Local criterion: all messages are consumed", "statement": "Under a local criterion every message sent, including those of the final clean-up, is received by its addressee, so that waiting for outstanding sends terminates.", "quantifier": "all schedules, finishing patterns, grids, relaxation counts", "why_tests_cant": "Needs particular combination of finishing iterations and settings.", "anchors": ["src/pymgrit/core/mgrit.py:clean_up", "src/pymgrit/core/mgrit.py:receive", "src/pymgrit/core/mgrit.py:convergence_criterion"]}
{"id": "C33", "title": "Local criterion: final coarse message has coarse data", "statement": "Under a local criterion the value received for a coarse-level ghost point is always the restriction of the neighbour's fine value, also when it comes from the neighbour's clean-up.", "quantifier": "all transfers, finishing patterns", "why_tests_cant": "Only visible with spatial coarsening and neighbours finishing in different iterations.", "anchors": ["src/pymgrit/core/mgrit.py:clean_up", "src/pymgrit/core/mgrit.py:fas_residual"]}
{"id": "C34", "title": "AT-MGRIT with a large distance is MGRIT", "statement": "For a distance k at least the number of coarsest points the AT-MGRIT coarsest solve computes the same values as the MGRIT coarsest solve, hence the whole solve agrees (two or more levels, one process).", "quantifier": "all k, grids, step functions, right-hand sides, states", "why_tests_cant": "Universally quantified over data and sizes.", "anchors": ["src/pymgrit/core/at_mgrit.py:forward_solve"]}
{"id": "C35", "title": "AT-MGRIT local solves use only a window of k points", "statement": "The AT-MGRIT coarsest value at a point is obtained by stepping from the old value k-1 points before (or from the initial point) using right-hand sides inside the window only; it does not depend on any other value.", "quantifier": "all k >= 1, grids, step functions, states", "why_tests_cant": "Non-interference statement over all states.", "anchors": ["src/pymgrit/core/at_mgrit.py:forward_solve"]}
{"id": "C36", "title": "AT-MGRIT keeps the sequential solution fixed and terminates", "statement": "The sequential solution is a fixed point of AT-MGRIT for every k >= 1, and for k >= 2 the exact prefix grows by at least one coarse interval per iteration with copying transfers.", "quantifier": "all k, levels, grids, nonlinear step functions", "why_tests_cant": "Limit statement over arbitrary problems.", "anchors": ["src/pymgrit/core/at_mgrit.py:forward_solve", "src/pymgrit/core/mgrit.py:iteration"]}
{"id": "C37", "title": "AT-MGRIT group communication delivers the window", "statement": "In a distributed run the data exchanged in the two group communications contains, for every process, the coarse data of all points in its window of k coarse points, and the constructor rejects distributions with more than one coarse point per process (two on the first).", "quantifier": "all k >= 1, numbers of coarse points, process counts", "why_tests_cant": "Unbounded in k and counts.", "anchors": ["src/pymgrit/core/at_mgrit.py:setup_points_and_comm_info", "src/pymgrit/core/at_mgrit.py:forward_solve"]}
{"id": "C38", "title": "Cycle structure and coarse-solve count", "statement": "One iteration of a V-cycle performs exactly one coarsest solve, one of an F-cycle with L >= 2 levels exactly L-1, and every iteration terminates; each level visit ends with an F-relaxation of that level.", "quantifier": "all level counts and relaxation counts", "why_tests_cant": "Recursion depth is unbounded.", "anchors": ["src/pymgrit/core/mgrit.py:iteration"]}
{"id": "C39", "title": "Nested iteration initial guess", "statement": "After construction with nested iteration on two levels, the C-point values on the fine grid are the interpolated sequential solution of the coarse problem started at the coarse vector_t_start; for any number of levels no fine right-hand side is altered and the initial value is kept.", "quantifier": "all hierarchies, step functions and transfers", "why_tests_cant": "Universally quantified over problems.", "anchors": ["src/pymgrit/core/mgrit.py:nested_iteration", "src/pymgrit/core/mgrit.py:__init__"]}
{"id": "C40", "title": "Causality", "statement": "The value MGRIT computes at a time point after any number of iterations depends only on the initial value, the initial guess and the step functions at times up to that point.", "quantifier": "all hierarchies, iterates, time points, perturbations of later data", "why_tests_cant": "Non-interference over all perturbations.", "anchors": ["src/pymgrit/core/mgrit.py:iteration"]}
{"id": "C41", "title": "Coarse grids without the initial time", "statement": "A hierarchy in which some coarse grid does not contain the initial time is rejected or solved correctly.", "quantifier": "all nested hierarchies accepted by the constructor", "why_tests_cant": "Tests only use grids containing the initial time.", "anchors": ["src/pymgrit/core/mgrit.py:__init__", "src/pymgrit/core/mgrit.py:setup_points_and_comm_info", "src/pymgrit/core/mgrit.py:f_relax"]}
{"id": "C42", "title": "Vector pack/unpack and clone", "statement": "For each provided vector class, unpacking a packed vector restores its values, clone yields an equal vector, clone_zero a zero one, and changing a clone through the public methods (set_values, unpack, arithmetic) leaves the original unchanged.", "quantifier": "all vectors of all sizes", "why_tests_cant": "Aliasing between clones is state-dependent and size-independent.", "anchors": ["src/pymgrit/heat/heat_1d.py:VectorHeat1D", "src/pymgrit/heat/vector_heat_1d_2pts.py:VectorHeat1D2Pts", "src/pymgrit/dahlquist/dahlquist.py:VectorDahlquist", "src/pymgrit/brusselator/brusselator.py:VectorBrusselator", "src/pymgrit/induction_machine/vector_machine.py:VectorMachine"]}
{"id": "C43", "title": "Induction-machine vector flattening", "statement": "Setting a machine vector from the flattened values of another with the same layout reproduces it.", "quantifier": "all layouts (front, middle, back sizes) and values", "why_tests_cant": "Fails only for an empty back part.", "anchors": ["src/pymgrit/induction_machine/vector_machine.py:VectorMachine.get_values", "src/pymgrit/induction_machine/vector_machine.py:VectorMachine.set_values"]}
{"id": "C44", "title": "Machine grid transfer: restriction undoes interpolation", "statement": "Restricting an interpolated machine vector returns the original vector.", "quantifier": "all layouts and values for which the interpolation succeeds", "why_tests_cant": "Universally quantified over layouts and mappings.", "anchors": ["src/pymgrit/induction_machine/grid_transfer_machine.py:GridTransferMachine"]}
{"id": "C45", "title": "Dahlquist time integrators solve their defining equations", "statement": "Each of the Dahlquist methods BE, FE, TR, MR returns the solution of the corresponding one-step scheme for u' = lambda u with the configured lambda.", "quantifier": "all lambda, step sizes for which the scheme is defined, and values", "why_tests_cant": "Tests only use lambda = -1.", "anchors": ["src/pymgrit/dahlquist/dahlquist.py:Dahlquist.step"]}
{"id": "C46", "title": "Heat 1D step is well posed and stable", "statement": "For every number of interior points, diffusion coefficient a >= 0 and step size dt >= 0 the linear system of the backward-Euler heat step has exactly one solution, and without source the maximum absolute value does not grow.", "quantifier": "all sizes, coefficients, step sizes and vectors", "why_tests_cant": "Unbounded sizes and real parameters.", "anchors": ["src/pymgrit/heat/heat_1d.py:Heat1D.compute_matrix", "src/pymgrit/heat/heat_1d.py:Heat1D.step"]}
{"id": "C47", "title": "Heat 2D matrix is the five-point stencil", "statement": "For every grid with at least three points per direction the assembled matrix acts as the five-point Laplacian at interior points and is zero on boundary rows.", "quantifier": "all nx, ny >= 3, all entries", "why_tests_cant": "Index arithmetic with strides; tests check one small grid.", "anchors": ["src/pymgrit/heat/heat_2d.py:Heat2D.compute_matrix"]}
{"id": "C48", "title": "Heat 2D Dirichlet values are imposed by every step", "statement": "After every time step of every method (BE, FE, CN) the boundary values equal the prescribed Dirichlet data.", "quantifier": "all grids, data, methods, step sizes, start vectors", "why_tests_cant": "Tests use homogeneous data.", "anchors": ["src/pymgrit/heat/heat_2d.py:Heat2D.step"]}
{"id": "C49", "title": "Advection step conserves mass and is stable", "statement": "The implicit upwind advection step has exactly one solution for c*dt >= 0, preserves the sum of the values, and does not increase the maximum absolute value.", "quantifier": "all sizes, speeds, step sizes and vectors", "why_tests_cant": "Unbounded sizes and real parameters.", "anchors": ["src/pymgrit/advection/advection_1d.py:Advection1D"]}
{"id": "C50", "title": "BDF2 coefficients are second order on variable grids", "statement": "With vanishing spatial operator, the two-point BDF2 step reproduces every quadratic polynomial in time exactly for arbitrary step size and pair spacing.", "quantifier": "all positive spacings, all quadratics", "why_tests_cant": "Real parameters.", "anchors": ["src/pymgrit/heat/heat_1d_2pts_bdf2.py:Heat1DBDF2.step"]}
{"id": "C51", "title": "Allen-Cahn Newton iteration is bounded", "statement": "The Allen-Cahn step performs at most newton_maxiter Newton iterations and always returns.", "quantifier": "all nonlinear residual sequences and iteration limits", "why_tests_cant": "Only visible when Newton does not converge.", "anchors": ["src/pymgrit/allen_cahn/allen_cahn.py:AllenCahn.step"]}
{"id": "C52", "title": "Brusselator steps", "statement": "The Brusselator step keeps the equilibrium (a, b/a) fixed, and a step of size zero returns the start value.", "quantifier": "all parameters and step sizes", "why_tests_cant": "Real parameters.", "anchors": ["src/pymgrit/brusselator/brusselator.py:Brusselator.step"]}
{"id": "C53", "title": "Application time grid and required attributes", "statement": "Constructing an application with a time interval array uses exactly that grid; otherwise t_start, t_stop and nt are all required; an application without vector_template or vector_t_start is rejected.", "quantifier": "all argument combinations", "why_tests_cant": "Decision logic over all combinations.", "anchors": ["src/pymgrit/core/application.py:Application"]}
{"id": "C54", "title": "Logging comes from exactly one process", "statement": "Every informational message is written by exactly one process of the space-time communicator.", "quantifier": "all time and space communicator sizes", "why_tests_cant": "Unbounded sizes.", "anchors": ["src/pymgrit/core/mgrit.py:log_info"]}
{"id": "C55", "title": "No out-of-range access in a sweep", "statement": "In every relaxation, residual, coarse solve and correction, each read or written local index lies inside the local arrays and each predecessor index is non-negative, on every process and level.", "quantifier": "all hierarchies containing the initial time, process counts, levels, ranks", "why_tests_cant": "Python's negative indices turn such errors into silent wrong answers.", "anchors": ["src/pymgrit/core/mgrit.py:f_relax", "src/pymgrit/core/mgrit.py:c_relax", "src/pymgrit/core/mgrit.py:fas_residual", "src/pymgrit/core/mgrit.py:error_correction", "src/pymgrit/core/mgrit.py:nested_iteration"]}
{"id": "C56", "title": "Repeated solve() resumes", "statement": "Calling solve() again continues from the current iterate, keeps an already exact solution, and reports only its own iterations.", "quantifier": "all histories of repeated solve() calls", "why_tests_cant": "History-dependent.", "anchors": ["src/pymgrit/core/mgrit.py:solve"]}
{"id": "C57", "title": "AT-MGRIT on several processes", "statement": "On several processes every process computes, in the AT-MGRIT coarsest solve, the value the run on one process computes for its last coarsest point.", "quantifier": "all accepted distributions, k >= 1, step functions, states", "why_tests_cant": "Tests run AT-MGRIT on one process only and emulate the setup, not the solve.", "anchors": ["src/pymgrit/core/at_mgrit.py:forward_solve", "src/pymgrit/core/at_mgrit.py:create_coarsest_level"]}
{"id": "C58", "title": "Two-point BDF1 equals two Euler steps", "statement": "One step of the two-point BDF1 heat application equals two consecutive backward-Euler steps of the one-point application (the pair and the start pair), and it is exact for solutions linear in time.", "quantifier": "all grid sizes, step sizes, pair distances, right-hand sides, states", "why_tests_cant": "Equality of two schemes over all inputs.", "anchors": ["src/pymgrit/heat/heat_1d_2pts_bdf1.py:Heat1DBDF1", "src/pymgrit/heat/heat_1d.py:Heat1D"]}
{"id": "C59", "title": "Heat 2D steps are well posed and bounded", "statement": "Every method of the 2D heat application returns a unique result, and backward Euler without source and boundary values never exceeds the largest absolute start value.", "quantifier": "all grid sizes, step sizes, states, boundary values", "why_tests_cant": "Solvability and stability for every size.", "anchors": ["src/pymgrit/heat/heat_2d.py:Heat2D.step"]}
{"id": "C60", "title": "Allen-Cahn operator and stationary states", "statement": "The Allen-Cahn matrix is the periodic five-point Laplacian for nx >= 3, and the stationary constants (0, 1, and -1 for even nu) are returned unchanged by every method.", "quantifier": "all grid sizes, step sizes, exponents", "why_tests_cant": "A statement about every matrix entry and every step size.", "anchors": ["src/pymgrit/allen_cahn/allen_cahn.py:AllenCahn"]}
{"id": "C61", "title": "PETSc steps depend on their arguments only", "statement": "A step of the PETSc heat and (implicit-explicit) Gray-Scott applications uses the operator of the requested step size, whatever steps were computed before with the same object.", "quantifier": "all histories of step calls and all step sizes", "why_tests_cant": "History-dependent: the operator is cached between calls.", "anchors": ["src/pymgrit/petsc/heat_2D_petsc.py:HeatPetsc.step", "src/pymgrit/petsc/gray_scott_2d_petsc.py:GrayScott.step"]}
{"id": "C62", "title": "PETSc heat operator is the documented stencil", "statement": "The assembled operator of the PETSc heat application is the documented five-point stencil with a/dx^2 in x- and a/dy^2 in y-direction at interior points and zero at boundary points.", "quantifier": "all grid sizes, spacings and grid functions", "why_tests_cant": "Tests use square grids only.", "anchors": ["src/pymgrit/petsc/heat_2D_petsc.py:HeatPetsc.get_a"]}
{"id": "C63", "title": "Gray-Scott Jacobian is the derivative of the residual", "statement": "The Jacobian handed to the nonlinear solver of the PETSc Gray-Scott application is the derivative of the residual function at every state; the residual uses the same diffusion operator as the implicit-explicit method.", "quantifier": "all grid sizes >= 3, spacings, parameters, step sizes, states", "why_tests_cant": "Over all states and spacings; tests use square grids only.", "anchors": ["src/pymgrit/petsc/gray_scott_2d_petsc.py:GrayScott.formJacobian", "src/pymgrit/petsc/gray_scott_2d_petsc.py:GrayScott.formFunction"]}
{"id": "C64", "title": "Local criterion guarantees the tolerance", "statement": "With the local residual criterion (conv_crit 2), put the solution together from the points of all processes after solve(): at every C-point (after the first time) of a process that stopped before max_iter, the norm of the difference between the propagated preceding value and the value is below tol, although neighbouring processes stop in different iterations.", "quantifier": "all hierarchies, process counts, problems, tolerances, schedules", "why_tests_cant": "A process stops on the basis of ghost values its neighbour may still change; only an argument over all interleavings and stopping patterns shows that the final values satisfy the tolerance.", "anchors": ["src/pymgrit/core/mgrit.py: convergence_criterion, compute_residual, clean_up, solve"]}
{"id": "C65", "title": "Local criterion: processes stop in order of time", "statement": "With the local residual criterion the number of iterations a process performs is at most max_iter and at most that of every process owning later times.", "quantifier": "all hierarchies, process counts, problems, tolerances, schedules", "why_tests_cant": "The number of stopping patterns is unbounded; tests see a few of them.", "anchors": ["src/pymgrit/core/mgrit.py: convergence_criterion, solve"]}
{"id": "C66", "title": "Local criterion: result independent of the schedule", "statement": "With the local residual criterion all executions of constructor and solve() end with the same values, iteration counts and histories on every process.", "quantifier": "all schedules of message delivery, all hierarchies and process counts", "why_tests_cant": "Tests run a few schedules out of exponentially many.", "anchors": ["src/pymgrit/core/mgrit.py: solve, clean_up, send, receive"]}
{"id": "C67", "title": "The F-points are the points that are not C-points, each once", "statement": "Whatever the order in which Python iterates over the set difference that defines the F-points of a process, it contains every local point that is not a C-point exactly once and nothing else.", "quantifier": "all sets of local points and C-points, any size of the hash table, any collisions", "why_tests_cant": "Depends on the hash table for every number and spread of points; tests use a few grids.", "anchors": ["src/pymgrit/core/mgrit.py: setup_points_and_comm_info (lines 771-776)"]}
{"id": "C68", "title": "Ideal coarse propagator solves in one iteration", "statement": "With two levels, copying transfers and a coarse step equal to the composition of the fine steps over its interval, the solution after one iteration is sequential time stepping at every point, whatever the initial guess, cf_iter, weight and cycle type.", "quantifier": "all two-level hierarchies, nonlinear steps, initial guesses, cf_iter, weights, cycle types", "why_tests_cant": "Holds for every step function and every guess.", "anchors": ["src/pymgrit/core/mgrit.py: iteration, fas_residual, forward_solve, error_correction"]}
{"id": "C69", "title": "Two levels without CF-relaxation are parareal", "statement": "With two levels, copying transfers and cf_iter 0 the values at the coarse points follow the parareal recursion U'_j = F_j(U_{j-1}) + G_j(U'_{j-1}) - G_j(U_{j-1}); with cf_iter > 0 the same recursion from the relaxed values; between coarse points the iterate is the fine propagation from the left coarse point.", "quantifier": "all two-level hierarchies, steps, guesses, cf_iter, weights, numbers of iterations", "why_tests_cant": "A closed form for every iterate of every problem.", "anchors": ["src/pymgrit/core/mgrit.py: iteration, f_relax, c_relax, fas_residual, forward_solve, error_correction"]}
{"id": "C70", "title": "Cycle types agree on two levels", "statement": "With at most two levels, cycle_type 'F' and 'V' give the same iterates.", "quantifier": "all problems, coarsest-level solvers, guesses, iteration counts", "why_tests_cant": "For every problem; a test compares single runs.", "anchors": ["src/pymgrit/core/mgrit.py: iteration"]}
{"id": "C71", "title": "The residual bounds the error", "statement": "If every fine step is Lipschitz with constant lam, the error of an iterate at point i against sequential time stepping is at most the sum over coarse points 1 <= c <= i of lam^(i-c) times the norm of the residual evaluated there; hence a recorded residual at most tol bounds the error by tol times the sum of lam^(i-c).", "quantifier": "all hierarchies, transfers, cycles, relaxations, coarsest-level solvers, Lipschitz problems", "why_tests_cant": "A quantitative guarantee for every problem.", "anchors": ["src/pymgrit/core/mgrit.py: compute_residual, convergence_criterion, f_relax"]}
{"id": "C72", "title": "Two-level convergence bound", "statement": "With two levels and copying transfers, if fine propagations, coarse steps and their differences are Lipschitz with constants phi, beta, alpha, the error at the n coarse points shrinks per iteration by alpha (|w| phi + |1-w|)^cf (1 + beta + ... + beta^(n-2)).", "quantifier": "all Lipschitz problems, two-level hierarchies, weights, cf_iter, guesses, iteration counts", "why_tests_cant": "An inequality over all problems and iterations.", "anchors": ["src/pymgrit/core/mgrit.py: iteration, solve"]}
{"id": "C73", "title": "Symmetries of the problem carry over to the iterates", "statement": "If an additive map (per level) commutes with steps, transfers and weighted means of two problems on the same grids, it maps the iterates of the first to the iterates of the second at every point, also after nested iteration; only values at the coarse points (or, with nested iteration, the start values) need to correspond.", "quantifier": "all hierarchies, maps, problems, cycles, iteration counts", "why_tests_cant": "Over all problems and maps.", "anchors": ["src/pymgrit/core/mgrit.py: iteration, nested_iteration"]}
{"id": "C74", "title": "Conserved quantities and invariant subspaces", "statement": "A linear quantity conserved by every step and by the transfers has the same value at every point of every iterate, if the initial values at the coarse points (with nested iteration: the start values) carry it; a subspace mapped into itself by steps and transfers contains all iterates starting in it.", "quantifier": "all hierarchies, conserved quantities, subspaces, cycles, weights, iteration counts", "why_tests_cant": "Over all problems and iterations.", "anchors": ["src/pymgrit/core/mgrit.py: iteration, nested_iteration, fas_residual, error_correction"]}
{"id": "C75", "title": "A crash never changes a result", "statement": "Whatever processes stop at whatever points, whichever of their messages in transit are lost, and however early Waitall returns, a process that does return from solve() returns what it returns in an undisturbed run (with a global criterion: the values of the run on one process).", "quantifier": "all configurations, crash points, sets of crashed processes, lost messages, schedules, numbers of processes", "why_tests_cant": "Crash points and message losses cannot be enumerated by tests.", "anchors": ["src/pymgrit/core/mgrit.py: solve, send, receive, clean_up"]}
{"id": "C76", "title": "All processes finish or none returns", "statement": "solve() returns on a process only when every process, crashed or not, has completed all its iterations; if a process stops earlier, or raises an exception, solve() returns nowhere.", "quantifier": "all configurations, crash points, schedules, numbers of processes", "why_tests_cant": "Crash points cannot be enumerated by tests.", "anchors": ["src/pymgrit/core/mgrit.py: solve (barriers)"]}
{"id": "C77", "title": "Buffering of messages does not matter", "statement": "If Waitall may return before the messages are received (buffered sends), runs without crashes still end after a bounded number of steps, without exception and without unreceived messages, with the same result on every process.", "quantifier": "all configurations and schedules, all choices of when Waitall returns", "why_tests_cant": "MPI implementations choose freely when a send completes.", "anchors": ["src/pymgrit/core/mgrit.py: send, iteration, solve"]}
{"id": "C78", "title": "step() is only called between neighbouring grid points", "statement": "Values of a level's step() for other intervals than those between neighbouring points of that level's grid, and restriction or interpolation beyond the coarsest level, never influence a run; in particular step() is called with t_start < t_stop only.", "quantifier": "all configurations, step and transfer functions, numbers of processes, criteria, schedules", "why_tests_cant": "Over all functions that differ elsewhere and all runs.", "anchors": ["src/pymgrit/core/mgrit.py: f_relax, c_relax, fas_residual, forward_solve, convergence_criterion", "src/pymgrit/core/application.py: Application.step"]}
{"id": "C79", "title": "Region maps of the induction machine transfer", "statement": "When the transfer of the induction machine is set up from mesh files, the maps of inner and outer unknowns list exactly the positions of the unknowns in the region, in order; otherwise an IndexError is raised, exactly if a point outside of a region shares one coordinate with a point of the region (numpy's `in` compares coordinates).", "quantifier": "all meshes, radii, numbers of unknowns", "why_tests_cant": "Over all meshes.", "anchors": ["src/pymgrit/induction_machine/helper.py: get_arrays, compute_data"]}
{"id": "C80", "title": "Interpolation of the induction machine is linear on triangles", "statement": "Interpolating from the coarser to the finer mesh keeps the values at the unknowns of the coarser mesh and gives each new unknown the linear interpolant of the values at the corners of the triangle that contains it, in its region, with zero at nodes with prescribed values.", "quantifier": "all pairs of mesh files, triangulations, vectors", "why_tests_cant": "Over all meshes and vectors.", "anchors": ["src/pymgrit/induction_machine/grid_transfer_machine.py: GridTransferMachine", "src/pymgrit/induction_machine/helper.py: interpolation_factors, interp_weights, compute_mesh_transfer, pre_file"]}
{"id": "C81", "title": "All nodes of a mesh file are read", "statement": "Reading a mesh file gives every node of the file, with its coordinates, under its name.", "quantifier": "all mesh files of version 4.0 with points, curves and surfaces", "why_tests_cant": "Over all files.", "anchors": ["src/pymgrit/induction_machine/helper.py: get_nodes"]}
{"id": "C82", "title": "Heat 2D steps fulfil the documented scheme", "statement": "Each result of a Heat2D step fulfils, at every interior grid point, the documented one-step method (backward Euler, forward Euler or Crank-Nicolson) with the five-point stencil; for the implicit methods the results are exactly the arrays that do so and have the prescribed boundary values.  Crank-Nicolson reproduces solutions quadratic in time, backward Euler linear ones.", "quantifier": "all grids, coefficients, sources, boundary data, start vectors, step sizes", "why_tests_cant": "Over all data and sizes.", "anchors": ["src/pymgrit/heat/heat_2d.py: Heat2D.step, Heat2D.compute_rhs"]}
{"id": "C83", "title": "Solution files of the induction machine are read completely", "statement": "Writing a start vector and reading the file gives the time and the vector.  Reading a solution file gives, for every time step number in the file, the time and the values of the last solution with that number, in order; a solution stored after one with a larger number raises an exception, and so does a file that ends within a solution.", "quantifier": "all vectors, all solution files, all places where a file may end", "why_tests_cant": "Over all files.", "anchors": ["src/pymgrit/induction_machine/helper.py: set_resolution, getdp_read_resolution"]}
{"id": "C84", "title": "A step of the induction machine returns what the solver computed from the start values", "statement": "step() hands t_start and the values of the start vector (and nothing else of it) and t_stop to the solver, and returns the last solution of its answer, split into three parts of the sizes of the start vector, with the last values of the eight result files; no vector with NaN is accepted or returned.  On uniform time grids the step size given to the solver divides every interval.  The result is the solution at t_stop.", "quantifier": "all solvers (any answer), start vectors, times", "why_tests_cant": "Over all behaviours of an external program.", "anchors": ["src/pymgrit/induction_machine/induction_machine.py: InductionMachine.step, run_getdp", "src/pymgrit/induction_machine/helper.py: get_preresolution, get_values_from"]}
{"id": "C85", "title": "Quantities outside of the norm are right when the run stops", "statement": "If the norm and the step see only part of a vector (as for the induction machine: joule losses, currents, voltages and torque are not part of the norm) and the criterion is zero, then the returned vectors are right in all quantities.", "quantifier": "all hierarchies, steps, initial guesses, numbers of iterations and processes", "why_tests_cant": "Over all problems and histories.", "anchors": ["src/pymgrit/induction_machine/vector_machine.py: VectorMachine.norm", "src/pymgrit/core/mgrit.py: convergence_criterion, iteration"]}
{"id": "C86", "title": "Allen-Cahn steps fulfil the documented schemes", "statement": "Whenever an implicit or Crank-Nicolson step of the Allen-Cahn application returns, the result fulfils backward Euler or the trapezoidal rule with the periodic five-point stencil at every grid point up to the Newton tolerance; the implicit-explicit step gives exactly the array with the Laplacian at the new and the reaction at the old time.  The Newton matrix is the derivative of the residual.", "quantifier": "all grids, parameters, start vectors, step sizes", "why_tests_cant": "Over all data and sizes.", "anchors": ["src/pymgrit/allen_cahn/allen_cahn.py: AllenCahn.step, AllenCahn.compute_matrix"]}
{"id": "C87", "title": "Sharing of vector objects does not change results", "statement": "The solver keeps references to vector objects, shares them between lists and unpacks received data into some of them.  If the functions of the user leave the vectors they are given unchanged (they may return the same object), a run gives the same values and messages as if every vector were a value of its own, and the vectors of the user (initial values, templates) are never modified.", "quantifier": "all hierarchies, numbers of processes, interleavings, criteria, and all functions of the user that do not modify their arguments (finest step returns new vectors if there are several processes)", "why_tests_cant": "Over all sharing patterns that arise in all runs; a wrong sharing shows only for particular vectors and schedules.", "anchors": ["src/pymgrit/core/mgrit.py: Mgrit.setup_points_and_comm_info, f_relax, c_relax, fas_residual, error_correction, forward_solve, nested_iteration, solve, clean_up"]}
{"id": "C88", "title": "Dahlquist problem: the error goes down by a factor of three per iteration", "statement": "Two-level MGRIT for the shipped Dahlquist problem with lambda <= 0 and backward Euler, copying transfers: if the initial guess is off by at most D at the coarse points, the returned values are off from sequential time stepping by at most D / 3^m at every time point, m the number of iterations; with nested iteration by at most |u_0| / 3^(m+1), whatever the guess.", "quantifier": "all lambda <= 0, nonuniform nested time grids, coarsening factors, CF-relaxations, weights in [0, 1], cycle types, guesses, numbers of iterations and processes, interleavings", "why_tests_cant": "A uniform rate over all step sizes, grids and parameters.", "anchors": ["src/pymgrit/dahlquist/dahlquist.py: Dahlquist.step", "src/pymgrit/core/mgrit.py: Mgrit.solve"]}
{"id": "C89", "title": "Heat equation (1D): the error goes down by a factor of three per iteration", "statement": "Two-level MGRIT for the shipped one-dimensional heat equation, copying transfers: the sum of squares of the error of the returned values at each time point is at most 1/9^m times the sum of squares of the errors of the initial guess at the coarse points, m the number of iterations; without source and with nested iteration at most 1/9^(m+1) times the sum of squares of the initial value.  The same for backward Euler with any symmetric positive semidefinite matrix.", "quantifier": "all diffusivities a >= 0, numbers of unknowns, spacings, sources, nonuniform nested time grids, coarsening factors, CF-relaxations, weights in [0, 1], cycle types, guesses, numbers of iterations and processes, interleavings", "why_tests_cant": "A uniform rate over all meshes, step sizes and parameters.", "anchors": ["src/pymgrit/heat/heat_1d.py: Heat1D.step, Heat1D.compute_matrix", "src/pymgrit/core/mgrit.py: Mgrit.solve"]}
{"id": "C90", "title": "Heat equation (2D): the error goes down by a factor of three per iteration, boundary values are exact", "statement": "Two-level MGRIT for the shipped two-dimensional heat equation with backward Euler, copying transfers, without nested iteration: the sum of squares of the error of the returned array at each time point is at most 1/9^m times the sum of squares of the errors of the initial guess at the coarse points, m the number of iterations, and the boundary values of the returned arrays are those of sequential time stepping (also if the initial guess violates them).", "quantifier": "all diffusivities a >= 0, grids, spacings, sources, boundary data, nonuniform nested time grids, coarsening factors, CF-relaxations, weights in [0, 1], cycle types, guesses, numbers of iterations and processes, interleavings", "why_tests_cant": "A uniform rate over all meshes, step sizes and parameters.", "anchors": ["src/pymgrit/heat/heat_2d.py: Heat2D.step, Heat2D.compute_matrix, Heat2D.compute_rhs", "src/pymgrit/core/mgrit.py: Mgrit.solve"]}
{"id": "C91", "title": "Arenstorf orbit: the equation is that of the restricted three-body problem", "statement": "Along every exact solution of the differential equation that the Arenstorf application gives to its integrator, the Jacobi integral is constant as long as the satellite does not meet one of the bodies, and reflecting a solution (x, y, x', y')(t) to (x, -y, -x', y')(-t) gives a solution.  The formula printed in the documentation of the class (second distance with x - a) does not have this property.", "quantifier": "all solutions, times and mass ratios", "why_tests_cant": "Over all solutions of a differential equation.", "anchors": ["src/pymgrit/arenstorf_orbit/arenstorf_orbit.py: arenstorf, ArenstorfOrbit"]}
{"id": "C92", "title": "Superposition: linear problems give results that depend linearly on the data", "statement": "If the steps are affine and the transfers additive, the values returned for the sum of two problems (start vectors, sources and initial guesses added) are the sums of the values returned for the two, after the same number of iterations; the error to sequential time stepping is the result of the homogeneous problem with the error of the initial guess as initial guess, so it does not depend on sources and start vector.", "quantifier": "all affine problems, hierarchies, cycle types, CF-relaxations, weights, with or without nested iteration (error equation: without), numbers of iterations, numbers of processes (may differ between the runs), interleavings", "why_tests_cant": "Over all pairs of problems and all data.", "anchors": ["src/pymgrit/core/mgrit.py: Mgrit.solve, Mgrit.iteration"]}
{"id": "C93", "title": "Multilevel convergence with an explicit rate", "statement": "MGRIT on any number of levels with copying transfers, for the shipped Dahlquist problem (lambda <= 0, backward Euler) and the shipped one- and two-dimensional heat equations (backward Euler): after m iterations the error of the returned values is at most q^m times the error of the initial guess at the coarse points.  For relaxation weights in [0, 1] q is (4/3)^(L-1) - 1 for V-cycles on L levels (1/3 for two levels, 7/9 for three) and 1/3, 13/27, 607/729 for F-cycles on two, three and four levels; for weights w > 1 on two levels without adjacent coarse points (2w-1)^nu/3 with nu CF-relaxations.  With nested iteration and without source the initial guess error is replaced by a multiple of the initial value.  The same rate holds, in any seminorm, for any time stepper whose steps do not increase differences and for which fine and coarse propagation over a coarse interval differ by at most (1 - b)/3 of the difference of the arguments, b the Lipschitz constant of the coarse step.", "quantifier": "all numbers of levels, nonuniform nested time grids, coarsening factors, CF-relaxations, relaxation weights (outside [0, 1]: no adjacent coarse points), cycle types, coefficients, sources, guesses, numbers of iterations and processes, interleavings", "why_tests_cant": "A uniform rate over all hierarchies, meshes, step sizes and parameters.", "anchors": ["src/pymgrit/core/mgrit.py: Mgrit.solve, Mgrit.iteration, Mgrit.nested_iteration", "src/pymgrit/dahlquist/dahlquist.py: Dahlquist.step", "src/pymgrit/heat/heat_1d.py: Heat1D.step", "src/pymgrit/heat/heat_2d.py: Heat2D.step"]}
{"id": "C94", "title": "Heat equation on pairs of time points (BDF1): the same convergence rates", "statement": "MGRIT on any number of levels with copying transfers for the shipped application that stores the heat equation at the two times t and t + dtau (backward Euler between the times, 0 <= dtau at most the smallest step of the finest grid): after m iterations the sums of squares of the errors of the first and of the second member of each returned pair are at most q^(2m) times the sum of squares of the errors of the initial guess at the coarse points, with the rate q of the multilevel convergence property.  With nested iteration and without source, the errors of the initial guess are replaced by a multiple of the initial condition.", "quantifier": "all diffusivities a >= 0, numbers of unknowns, spacings, sources, dtau, numbers of levels, nonuniform nested time grids, CF-relaxations, weights, cycle types, guesses, numbers of iterations and processes, interleavings", "why_tests_cant": "A uniform rate over all hierarchies, meshes, step sizes and parameters; coarse and fine steps of this application split the interval differently.", "anchors": ["src/pymgrit/heat/heat_1d_2pts_bdf1.py: Heat1DBDF1.step, Heat1DBDF1.__init__", "src/pymgrit/core/mgrit.py: Mgrit.solve, Mgrit.nested_iteration"]}
{"id": "C95", "title": "Finite termination with transfers that lose information (spatial coarsening)", "statement": "With at least one FCF-relaxation and weight one, MGRIT returns sequential time stepping once the number of iterations times cf_iter of the finest level reaches the number of coarse intervals, for all grid transfers that map zero to zero, e.g. restriction to and interpolation from a coarser spatial mesh; before that, it is exact on the first m*cf_iter + 1 coarse intervals after m iterations.  With F-relaxation only (cf_iter = 0) this is not so: the values at the coarse points always differ from the initial guess by combinations of interpolated values (with nested iteration they are such combinations), however many iterations are performed.", "quantifier": "all nonlinear steps, hierarchies, transfers that map zero to zero, cycle types, guesses, with or without nested iteration, numbers of iterations and processes, interleavings", "why_tests_cant": "Over all problems, hierarchies and transfers; the negative part is about all numbers of iterations.", "anchors": ["src/pymgrit/core/mgrit.py: Mgrit.solve, Mgrit.iteration, Mgrit.convergence_criterion", "examples/example_spatial_coarsening.py: GridTransferHeat"]}
{"id": "C96", "title": "A jump of zero means that the problem is solved", "statement": "With the jump criterion (conv_crit = 1): if the last recorded value is zero, the values returned on all processes are those of sequential time stepping.  (Two consecutive iterates that agree at the coarse points are followed by the same iterate for ever.)", "quantifier": "all nonlinear steps, hierarchies, cycle types, weights, CF-relaxations, transfers, guesses, with or without nested iteration, norms that vanish only at zero, numbers of processes, interleavings", "why_tests_cant": "Over all problems; says that a small change cannot be confused with a solution when it is zero.", "anchors": ["src/pymgrit/core/mgrit.py: Mgrit.compute_jump, Mgrit.convergence_criterion, Mgrit.solve"]}
{"id": "C97", "title": "What the tolerance means with the jump criterion", "statement": "For the problems of the multilevel convergence property with rate q < 1 and the jump criterion (conv_crit = 1): the error of all returned values (with respect to sequential time stepping) is at most q/(1-q) times the last recorded value of the criterion.  On two levels with weight in [0, 1], if solve() stops before max_iter all returned values are within half the tolerance of sequential time stepping.", "quantifier": "the Dahlquist problem (lambda <= 0, backward Euler; any norm in time), the one-dimensional heat equation and backward Euler for any symmetric matrix with nonnegative eigenvalues (Euclidean norm of vectors; one- or two-norm in time), any contracting time stepper in a seminorm; all numbers of levels, grids, weights, cycle types, guesses, with or without nested iteration, tolerances, numbers of processes, interleavings", "why_tests_cant": "An error bound over all problems and hierarchies from the one number the user sees.", "anchors": ["src/pymgrit/core/mgrit.py: Mgrit.compute_jump, Mgrit.convergence_criterion, Mgrit.solve", "src/pymgrit/dahlquist/dahlquist.py: Dahlquist.step", "src/pymgrit/heat/heat_1d.py: Heat1D.step"]}
{"id": "C98", "title": "Upper bound of the number of iterations until the tolerance is reached", "statement": "For the problems of the multilevel convergence property with rate q, errors of the initial guess at the coarse points at most D (with nested iteration and without source: a multiple of the initial value) and a norm in time that is at most beta times the largest entry (beta = n, sqrt(n), 1 for n coarse points without the first): solve() performs at most k iterations and ends below the tolerance if k <= max_iter and 2 beta q^k D < tol (residual criterion) or beta (q^k + q^(k-1)) D < tol (jump criterion).", "quantifier": "the Dahlquist problem, the one-dimensional heat equation, backward Euler for any symmetric matrix with nonnegative eigenvalues, any contracting time stepper in a seminorm; all numbers of levels, grids, weights, cycle types, guesses, tolerances, k, numbers of processes, interleavings", "why_tests_cant": "A bound of the number of iterations over all problems, hierarchies and mesh sizes.", "anchors": ["src/pymgrit/core/mgrit.py: Mgrit.compute_residual, Mgrit.compute_jump, Mgrit.convergence_criterion, Mgrit.solve", "src/pymgrit/dahlquist/dahlquist.py: Dahlquist.step", "src/pymgrit/heat/heat_1d.py: Heat1D.step"]}
{"id": "C99", "title": "Spatial coarsening transfers of the example", "statement": "The transfers between spatial meshes of the spatial coarsening example: interpolation keeps the values at the points of the coarse mesh and takes means between them (zero at the boundary), so samples of piecewise linear functions are interpolated to their samples on the fine mesh; restriction is half the transpose of interpolation; restricting the fine heat operator applied to an interpolated vector gives the heat operator of the mesh with twice the spacing; neither increases the largest absolute value; m values become 2m+1 and these m again, while an even number of values does not survive the round trip.  Used in MGRIT on any number of levels with weight one, the result is sequential time stepping once iterations times cf_iter reach the number of coarse intervals; without FCF-relaxation the change of the values at coarse points always stays linear between points of the coarse spatial mesh.", "quantifier": "all vectors, numbers of unknowns, coefficients, spacings, and in MGRIT all steps, hierarchies, guesses, numbers of iterations and processes, interleavings", "why_tests_cant": "Over all mesh sizes and vectors.", "anchors": ["examples/example_spatial_coarsening.py: GridTransferHeat.restriction, GridTransferHeat.interpolation", "src/pymgrit/core/mgrit.py: Mgrit.solve"]}
{"id": "C100", "title": "Spatial meshes fit the discretization", "statement": "The points x kept by a shipped application are equally spaced by the spacing used in its matrix and fit the boundary conditions: interior points of [x_start, x_end] for the one-dimensional heat equation (nx - 2 of them, at distance dx from both ends), points of a period for advection (nx - 1, the end being the image of the first), all points including both ends for the two-dimensional heat equation, points of a period for Allen-Cahn.  Meshes with 2m+3 and m+2 points are nested as the transfers of the example assume.  On such a mesh the heat operator is exact for cubic polynomials that vanish at both ends.", "quantifier": "all intervals and numbers of points", "why_tests_cant": "Over all numbers of points and intervals.", "anchors": ["src/pymgrit/heat/heat_1d.py: Heat1D.__init__", "src/pymgrit/advection/advection_1d.py: Advection1D.__init__", "src/pymgrit/heat/heat_2d.py: Heat2D.__init__", "src/pymgrit/allen_cahn/allen_cahn.py: AllenCahn.__init__"]}
{"id": "C101", "title": "Accuracy of the shipped heat and advection discretizations", "statement": "Sequential time stepping with the shipped application stays close to a smooth solution u of the differential equation at the points of the mesh: for the one-dimensional heat equation the largest error at t_i is at most (t_i - t_0)(h/2 max|u_tt| + a dx^2/12 max|u_xxxx|), for the two-dimensional one with the implicit method the same with dx^2 max|u_xxxx| + dy^2 max|u_yyyy|, for advection with nonnegative speed at most (t_i - t_0)(h/2 max|u_tt| + c dx/2 max|u_xx|), where h bounds the step sizes.  If solve() with the jump criterion on two levels of the one-dimensional heat equation stops before max_iter, the values returned are as close plus half the tolerance.", "quantifier": "all meshes, time grids with increasing points, coefficients, right-hand sides and smooth solutions satisfying the boundary conditions; for solve(): all weights in [0, 1], guesses, tolerances, numbers of processes, interleavings", "why_tests_cant": "Convergence as the meshes are refined is a statement about all meshes and solutions.", "anchors": ["src/pymgrit/heat/heat_1d.py: Heat1D.step, Heat1D.compute_matrix", "src/pymgrit/heat/heat_2d.py: Heat2D.step", "src/pymgrit/advection/advection_1d.py: Advection1D.step", "src/pymgrit/core/mgrit.py: Mgrit.solve"]}
{"id": "C102", "title": "Accuracy of the Dahlquist methods", "statement": "With lambda <= 0, sequential time stepping with method BE (any step sizes) and FE (step sizes at most h with h|lambda| <= 2) is accurate of first order: the error at t_i is at most (t_i - t_0) h/2 lambda^2 |u_0|; with TR and MR of second order: at most (t_i - t_0) h^2/12 |lambda|^3 |u_0|.  The values returned by solve() with BE on two levels and the jump criterion, if it stops before max_iter, are as close plus half the tolerance.", "quantifier": "all lambda <= 0, grids with increasing points, initial values; for solve(): all weights in [0, 1], guesses, tolerances, numbers of processes, interleavings", "why_tests_cant": "Order of accuracy is a statement about all step sizes.", "anchors": ["src/pymgrit/dahlquist/dahlquist.py: Dahlquist.step", "src/pymgrit/core/mgrit.py: Mgrit.solve"]}
{"id": "C103", "title": "Convergence of AT-MGRIT depends on the distance k in an explicit way", "statement": "AT-MGRIT with distance k on one process, copying transfers and time steppers as in the multilevel convergence property whose steps on the coarsest level damp differences by b: after m iterations the error of the values is at most q^m times the error at the coarse points after the constructor, where q = 1/3 + 4/3 b^(k-1) on two levels and (4/3)^(L-1) (1 + b^(k-1)) - 1 for V-cycles on L levels (weights in [0, 1]).  For the Dahlquist problem (lambda <= 0, backward Euler) with coarsest steps of size H or more b = 1/(1 + H |lambda|); for the one-dimensional heat equation with diffusivity a on an interval of length len b = 1/(1 + 8 a H/len^2), whatever the number of spatial points.", "quantifier": "all k >= 1, numbers of levels, nonuniform nested time grids, CF-relaxations, weights, cycle types, coefficients, sources, guesses, numbers of iterations", "why_tests_cant": "A uniform rate over all distances, hierarchies, meshes, step sizes and parameters.", "anchors": ["src/pymgrit/core/at_mgrit.py: AtMgrit.__init__, AtMgrit.forward_solve", "src/pymgrit/core/mgrit.py: Mgrit.solve", "src/pymgrit/dahlquist/dahlquist.py: Dahlquist.step", "src/pymgrit/heat/heat_1d.py: Heat1D.step"]}
{"id": "C104", "title": "Inexact steps limit the accuracy but not the convergence", "statement": "If every time step on every level is within eps (in a seminorm) of an ideal step satisfying the hypotheses of the multilevel convergence property with rate q < 1, then after m iterations the returned values are within q^m D + f n eps/(1 - q) of sequential time stepping with the ideal steps, where D is the error at the coarse points after the constructor, n the number of time points and f an explicit factor (q = 1/3 and f = (nu + 1)/3 + 4 on two levels with nu CF-relaxations, weight in [0, 1] and the shipped problems).  So solving linear systems up to a tolerance perturbs the result by a multiple of the tolerance, whatever the number of iterations: for the one-dimensional heat equation with residuals of Euclidean norm at most eps, the Euclidean norms of the errors satisfy this bound with an additional factor sqrt(number of unknowns) in the second term.", "quantifier": "all time steppers in the setting of the multilevel convergence property and all perturbations of at most eps, numbers of levels, grids (no neighbouring coarse points on levels with CF-relaxation), CF-relaxations, weights, cycle types, guesses, numbers of iterations and processes, interleavings", "why_tests_cant": "Over all perturbations and numbers of iterations; errors could accumulate over iterations and levels.", "anchors": ["src/pymgrit/core/mgrit.py: Mgrit.solve, Mgrit.iteration", "src/pymgrit/dahlquist/dahlquist.py: Dahlquist.step", "src/pymgrit/heat/heat_1d.py: Heat1D.step"]}
{"id": "C105", "title": "The plots show what the solver does", "statement": "The plots of the plotting solver agree with the solver: the letters of the cycle plot (F-relaxation, C-relaxation, coarsest solve with their levels) are the operations performed by the constructor and by each iteration in their order; the distribution plot marks exactly the points of each level, long marks are the points shared with the next level, and the boxes contain the points each process owns; the convergence plot has the points (j, value of the criterion after iteration j).", "quantifier": "all accepted arguments, numbers of levels, CF-relaxations, cycle types, hierarchies, numbers of processes and iterations, interleavings", "why_tests_cant": "Over all hierarchies, process counts and cycles; a plot is only looked at in single cases.", "anchors": ["src/pymgrit/core/mgrit_with_plots.py: MgritWithPlots.plot_cycle, MgritWithPlots.plot_parallel_distribution, MgritWithPlots.plot_convergence"]}
{"id": "C106", "title": "Number of calls of the step function", "statement": "The cost of a run in time steps is explicit.  On L >= 2 levels with n_j steps on level j and nu_j CF-relaxations, one iteration calls step() of the finest level exactly (nu_0 + 1) n_0 times for both cycle types (in the first iteration once more per F-point); on level 0 < j < L-1 a V-cycle calls it (nu_j + 3) n_j - n_(j+1) times and an F-cycle (j (nu_j + 3) + nu_j + 1) n_j - j n_(j+1) times, on the coarsest level 2 n_j and 2 j n_j times.  Nested iteration never calls step() of the finest level.  solve() with m iterations and the residual criterion additionally calls it once per iteration and coarse point.  On several processes no call in the sweeps is made twice or left out.", "quantifier": "all hierarchies, CF-relaxations, cycle types, numbers of iterations, steps, right-hand sides, numbers of processes", "why_tests_cant": "A closed formula for all hierarchies and numbers of iterations; the result does not show how often step() was called.", "anchors": ["src/pymgrit/core/mgrit.py: Mgrit.solve, Mgrit.iteration, Mgrit.f_relax, Mgrit.c_relax, Mgrit.fas_residual, Mgrit.forward_solve, Mgrit.compute_residual"]}
{"id": "C107", "title": "The solvers of the induction machine", "statement": "The solver classes for the induction machine do a nested iteration with the sinusoidal source and return to the PWM source given to the constructor, whatever happens; their solve() runs MGRIT and stops when the joule losses at all coarse points change by less than tol percent; this criterion is the same for every number of processes; the output function is called once at the end; and the returned history contains one value per iteration.", "quantifier": "all problems, hierarchies, sources, losses, tolerances, numbers of processes", "why_tests_cant": "Over all hierarchies, sources and distributions of the points over processes.", "anchors": ["src/pymgrit/induction_machine/mgrit_machine.py: MgritMachine.nested_iteration", "src/pymgrit/induction_machine/mgrit_machine_conv_jl.py: MgritMachineConvJl.nested_iteration, MgritMachineConvJl.iteration, MgritMachineConvJl.convergence_criteria, MgritMachineConvJl.solve", "examples/at_mgrit/runme_machine.py: AtMgritMachine.convergence_criterion"]}
{"id": "C108", "title": "Allen-Cahn steps keep the bounds and decrease the energy", "statement": "As the exact equation does, time steps of the Allen-Cahn application with even nu keep values between -1 and 1 (up to the Newton tolerance for IMPL and CN) and do not increase the discrete energy, for all step sizes; in particular starting from the initial value of the application, along the whole time stepping.  Results of IMPL for steps below eps^2 depend continuously on the start value.", "quantifier": "all grids with at least three points per direction, even exponents, eps, start values in [-1, 1], step sizes, numbers of Newton iterations, linear solvers", "why_tests_cant": "Bounds and monotonicity have to hold for all states; a test sees single trajectories.", "anchors": ["src/pymgrit/allen_cahn/allen_cahn.py: AllenCahn.step, AllenCahn.initial_guess"]}
{"id": "C109", "title": "Start value, radii and symmetry of the Allen-Cahn application", "statement": "The initial value is non-negative exactly at the points in the disc of the given radius and decreases with the distance to the centre.  compute_radius of the initial value is the given radius up to (1 + radius)/nx (radius at most 1/2).  exact_radius starts at the given radius, decreases with sqrt(radius^2 - 2t) and is zero from t = radius^2/2 on.  compute_radius depends on the signs only, is monotone, and at most that of the domain.  Time stepping with IMEX keeps the symmetries of the square (mirrored rows, mirrored columns, exchange of both), which the initial value has.", "quantifier": "all numbers of points, eps, radii, times, states, time grids", "why_tests_cant": "An error bound for all numbers of points and radii (counting grid points in a disc), and a symmetry for all runs.", "anchors": ["src/pymgrit/allen_cahn/allen_cahn.py: AllenCahn.initial_guess, AllenCahn.exact_radius, AllenCahn.compute_radius, AllenCahn.step"]}
{"id": "C110", "title": "Only the order of the times matters to the solver", "statement": "The solver uses the time points only to compare them and to pass them to step().  Replacing all grids by their images under a strictly increasing map (another unit, another origin), with a step() that gives the same values on the transformed intervals, leaves every message, value, convergence history, number of iterations and output unchanged, on every number of processes and with every convergence criterion.  For autonomous problems the origin of time does not matter; two hierarchies with the same positions of the coarse points behave alike, whatever the spacing.", "quantifier": "all hierarchies over all ordered types of times, strictly increasing maps, problems, solver arguments, numbers of processes, interleavings", "why_tests_cant": "Over all transformations and hierarchies; a dependence on the size of a time (a comparison with a constant, a tolerance in a search) shows only for particular times.", "anchors": ["src/pymgrit/core/mgrit.py: Mgrit.setup_points_and_comm_info, Mgrit.solve", "src/pymgrit/core/application.py: Application.step"]}
{"id": "C111", "title": "Longer runs continue shorter ones and observers change nothing", "statement": "With an iteration limit that is not smaller and a tolerance that is not larger, solve() makes at least as many iterations, its convergence history starts with that of the shorter run, and with output_lvl 2 the output function is called with the result of the shorter run in the iteration in which that run stopped.  The output level changes neither values nor convergence values nor the number of iterations.  Both also when the two runs use different numbers of processes (global criteria).", "quantifier": "all problems, hierarchies, solver arguments, tolerances, iteration limits, output levels, pairs of numbers of processes, interleavings", "why_tests_cant": "Compares two arbitrary runs with different stopping parameters and process counts.", "anchors": ["src/pymgrit/core/mgrit.py: Mgrit.solve, Mgrit.convergence_criterion, Mgrit.__init__"]}
{"id": "C112", "title": "Time points in another order", "statement": "A hierarchy whose grids the constructor accepts, but whose times do not increase (integration backwards in time, unordered or repeated time points), is rejected with an intelligible error or solved as the same hierarchy with increasing times would be.", "quantifier": "all nested hierarchies of time grids without an assumption on the order, all numbers of processes", "why_tests_cant": "Over all hierarchies and process counts; the constructor compares the grids as sets, so nothing announces the violated assumption.", "anchors": ["src/pymgrit/core/mgrit.py: Mgrit.__init__, Mgrit.setup_points_and_comm_info, Mgrit.create_u_v_g, Mgrit.fas_residual"]}
{"id": "C113", "title": "solve() ends without an exception of the array library", "statement": "For every accepted set of arguments solve() raises no exception of NumPy: the values the criterion collects can be combined with every documented time norm, and the overview printed at the end can be computed.", "quantifier": "all problems, hierarchies, solver arguments, distributions of the time points over processes, interleavings and crash points", "why_tests_cant": "Depends on which process owns which C-points, that is on the combination of grid, coarsening and number of processes; on few processes every process owns one.", "anchors": ["src/pymgrit/core/mgrit.py: Mgrit.convergence_criterion, Mgrit.compute_residual, Mgrit.compute_jump, Mgrit.ouput_run_information, Mgrit.solve"]}
{"id": "C114", "title": "Number, receivers and tags of the messages", "statement": "The number of messages of a run depends only on the distribution of the points, cf_iter, the cycle and the number of iterations, not on values, schedule or process speeds: per iteration every process sends, on every level and in every sweep, at most one message of each kind, always to the process owning the next point of that level, and a process that returns after m iterations has sent exactly the number given by a closed formula (V- and F-cycles, nested iteration, local criteria with clean_up).  The tags are valid MPI tags and consecutive per kind and level.", "quantifier": "all hierarchies, solver arguments, numbers of processes, interleavings, crash points, levels, kinds of messages", "why_tests_cant": "Counts messages over all executions and all distributions; a superfluous or missing message shows only for particular positions of process boundaries, an invalid tag only with particular MPI libraries.", "anchors": ["src/pymgrit/core/mgrit.py: Mgrit.send, Mgrit.receive, Mgrit.f_relax, Mgrit.c_relax, Mgrit.fas_residual, Mgrit.forward_solve, Mgrit.convergence_criterion, Mgrit.clean_up, Mgrit.__init__"]}
{"id": "C115", "title": "Convergence in rounded arithmetic", "statement": "When every operation of the vector class and every step is carried out with rounding errors (fixed point: absolute, floating point: relative), so that no law of arithmetic holds, solve() still approaches the exact fine-grid solution with the same factor per iteration as in exact arithmetic, up to an explicit multiple of the unit roundoff times the number of time points, provided the unit roundoff is small compared to the number of time points and intermediate values do not overflow.  In particular for the shipped Dahlquist problem with lambda <= 0 and for the shipped heat equation with backward Euler in double precision.", "quantifier": "all rounding functions with the error bound, all grids, nestings, cf_iter, weights, cycles, numbers of processes, interleavings, iteration limits, tolerances", "why_tests_cant": "A test runs one sequence of roundings; accumulated rounding errors depend on the number of points and levels and on the data.", "anchors": ["src/pymgrit/core/mgrit.py: Mgrit.solve, Mgrit.iteration, Mgrit.f_relax, Mgrit.c_relax, Mgrit.fas_residual, Mgrit.error_correction", "src/pymgrit/dahlquist/dahlquist.py: VectorDahlquist, Dahlquist.step", "src/pymgrit/heat/heat_1d.py: VectorHeat1D, Heat1D.step"]}
{"id": "C116", "title": "The discontinuous diffusion problem of the Firedrake coupling", "statement": "A step of the two-dimensional diffusion problem (discontinuous linear elements with a penalty for jumps) conserves the integral of the solution and keeps constants, has exactly one result and does not increase the L2 norm; MGRIT keeps the integral of the initial condition exactly in every returned value, whatever the initial guess, and the L2 error of the returned values decreases by the factor of C93 in every iteration.", "quantifier": "all triangular meshes, diffusion coefficients, penalties, step sizes, start values, all grids in time, cycles, relaxations, numbers of processes, interleavings, iteration limits", "why_tests_cant": "Existence, stability and convergence are statements about a form on a finite element space; on coarse meshes, as in the tests, the default penalty is sufficient.", "anchors": ["src/pymgrit/firedrake/diffusion_2d_firedrake.py: Diffusion2D.__init__, Diffusion2D.step", "examples/firedrake/example_diffusion_2d_firedrake.py"]}
{"id": "C117", "title": "Burgers' equation with the Firedrake coupling", "statement": "On a periodic interval a time step of the one-dimensional Burgers problem has a result for every start value and every positive step size; it conserves the integral of the solution, and the L2 norm decreases by exactly the viscous dissipation and that of backward Euler (the nonlinear term neither produces nor destroys energy).  The result is unique if the slopes of the results are above -2 / dt, in particular for all steps that are small compared to the cells and the norm of the start value.  MGRIT returns values with exactly the integral of the initial condition, whatever the initial guess.", "quantifier": "all periodic meshes, viscosities >= 0, start values, step sizes; all grids in time, cycles, relaxations, numbers of processes, interleavings, iteration limits", "why_tests_cant": "Existence of solutions of the nonlinear systems and exact balances are statements about all start values and step sizes; a test sees single Newton iterations converge.", "anchors": ["src/pymgrit/firedrake/burgers_firedrake.py: Burgers1D.__init__, Burgers1D.step", "examples/firedrake/example_burgers_firedrake.py"]}
{"id": "C118", "title": "The nonlinear equations of implicit steps are solvable", "statement": "Allen-Cahn: for every step size and start value an exact implicit and an exact Crank-Nicolson step exists, the implicit one within the bounds of the start value; below eps^2 (2 eps^2) it is the only one, and the result of step() is within newton_tol / (1 - dt/eps^2) of it, whatever the linear solver does; above eps^2 the step from zero has several results.  Gray-Scott: for every step size and all concentrations that are not negative the implicit equation has a solution and the implicit-explicit one exactly one; the implicit one is determined for steps small compared to the reaction; from the uniform state it is determined if dt (1 + dt a + 4 dt du / h^2) < 4 (1 + dt b)^2 and has a second solution if dt (1 + dt a) >= 4 (1 + dt b)^2.", "quantifier": "all start values, step sizes, parameters, grids, linear solvers, numbers of Newton iterations", "why_tests_cant": "Existence and uniqueness of solutions of nonlinear systems are statements about all vectors; a test sees one Newton iteration from one start value.", "anchors": ["src/pymgrit/allen_cahn/allen_cahn.py: AllenCahn.step", "src/pymgrit/petsc/gray_scott_2d_petsc.py: GrayScott.step, GrayScott.formFunction, GrayScott.formJacobian"]}
{"id": "C119", "title": "Gray-Scott: concentrations stay physical", "statement": "Starting from concentrations that are not negative, every step of the Gray-Scott application gives concentrations that are not negative, the first one stays below max(1, its previous maximum), and the total amount changes exactly by feed and loss.  The initial value consists of concentrations between 0 and 1 and starts a reaction.", "quantifier": "all start values, step sizes, parameters >= 0, grids, methods IMPL, IMEX and EXPL, domain sizes", "why_tests_cant": "Sign and balance must hold for all start values and step sizes; the tests of the repository do not run PETSc.", "anchors": ["src/pymgrit/petsc/gray_scott_2d_petsc.py: GrayScott.__init__, GrayScott.step, GrayScott.compute_rhs_imex, GrayScott.formFunction, GrayScott.initial_guess", "examples/petsc4py/example_gray_scott_2d_petsc.py"]}
{"id": "C120", "title": "Newton's loop of the Allen-Cahn application ends", "statement": "With values bounded by M >= 1 and a step size up to eps^2 / (1 + 3/2 M^2) (for M = 1: 2/5 eps^2), an implicit step of the Allen-Cahn application returns after an explicit number of Newton updates, and the result is the exact step up to newton_tol / (1 - dt/eps^2).  Every update reduces the largest error by a factor of 3/4 from every position, and quadratically near the solution.  The same holds for Crank-Nicolson steps with half of the step size.", "quantifier": "all start values within the bound, step sizes, parameters (exponent 2), grids, tolerances, iterates", "why_tests_cant": "The loop has no limit of its own (C51), so that it ends must hold for all start values; a test sees it end for some.", "anchors": ["src/pymgrit/allen_cahn/allen_cahn.py: AllenCahn.step"]}
{"id": "C121", "title": "Stability and order of the BDF2 pairs", "statement": "For the two-point BDF2 version of the heat equation with spacings whose ratio (t_stop - t_start - dtau) / dtau is between 1/4 and 7: the energy of a pair (squared slopes in space plus squared slope in time) does not grow in a step without a source, and over a run grows at most by 5/2 times the elapsed time times the largest squared norm of the source.  Started with its own start pair, time stepping differs from a smooth solution of the heat equation at both times of every pair by at most (b - a) sqrt((2 dtau + 5 (t - t_start)) / a_diff) (7/3 h^2 max|u_ttt| + a_diff dx^2/12 max|u_xxxx|): second order in time and space, uniformly in the number of steps.", "quantifier": "all sizes, diffusivities, sources, start pairs, non-equidistant time grids within the ratio, smooth solutions", "why_tests_cant": "Stability of a multistep formula with alternating step sizes is a statement about all start values and all numbers of steps; a test compares a few values with one solution.", "anchors": ["src/pymgrit/heat/heat_1d_2pts_bdf2.py: Heat1DBDF2.__init__, Heat1DBDF2.step, Heat1DBDF2.compute_matrix", "examples/example_heat_1d_bdf2.py"]}
{"id": "C122", "title": "Solutions stated by the example scripts", "statement": "The functions that the heat-equation scripts state as exact solutions solve the differential equation with the right-hand side, initial value and boundary values of the script.  In the one-dimensional scripts (domain [0, m] for any whole m) sequential time stepping differs from sin(pi x) cos(t) by at most t (h/2 + pi^4 dx^2/12), with the numbers of example_heat_1d by less than 0.0313; both values of the BDF2 pairs by at most sqrt(2 dtau + 5 t) (7/3 h^2 + pi^4 dx^2/12).  In example_heat_2d sequential time stepping yields the stated solution exactly at every grid point and time.  The values returned by solve() with the default criterion, if it stopped before max_iter, are within g tol of these, with g = 1 for the 1-norm in time, the square root of the number of C-points for the 2-norm, the number of C-points for the maximum norm, for any number of levels, cycle, weights, coarse problems and transfers.", "quantifier": "all meshes, time grids from zero, numbers of levels, cycles, weights, transfers, processes and schedules; rectangles and diffusivities in two dimensions", "why_tests_cant": "The scripts print one difference for one mesh; that the difference is the tolerance alone, or discretization error of known size, is a statement about all meshes and time grids.", "anchors": ["examples/example_heat_1d.py: rhs, init_cond", "examples/example_heat_1d_bdf2.py: rhs, init_cond, exact_sol", "examples/example_heat_2d.py: rhs, exact_sol", "examples/example_spatial_coarsening.py: rhs, init_cond", "examples/toms/example_1_heat1d.py: rhs, init_cond, exact_sol", "src/pymgrit/core/mgrit.py:solve", "src/pymgrit/core/mgrit.py:convergence_criterion"]}
{"id": "C123", "title": "Stated solution of the PETSc heat equation", "statement": "HeatPetsc.u_exact(t) is the solution of the problem, and sequential time stepping reaches it: for every frequency f, coefficient a, time grid from zero with spacing at most h and numbers of points mx, my, the computed values differ from u_exact by at most t (h/2 + a (pi f)^4 max(dx, dy)^2 / 6).  Every step has exactly one result, does not increase the largest difference of two start vectors and keeps boundary values.", "quantifier": "all numbers of points, frequencies, coefficients, time grids and histories of calls", "why_tests_cant": "The class ships with one square grid of equidistant times; whether the error goes to zero under refinement for all grids cannot be seen from runs.", "anchors": ["src/pymgrit/petsc/heat_2D_petsc.py: HeatPetsc.__init__, HeatPetsc.step, HeatPetsc.get_a, HeatPetsc.get_id, HeatPetsc.compute_rhs, HeatPetsc.rhs, HeatPetsc.u_exact", "examples/toms/example_3_petsc.py: HeatPetsc"]}
{"id": "C124", "title": "Transfers between PETSc grids", "statement": "GridTransferPetsc between a grid and its refinement: the restriction undoes the interpolation; functions that are bilinear in the coordinates are interpolated exactly; values stay between the bounds of the given ones; zero boundary values stay zero; start value, right-hand side and stated solution of the coarse grid are the restricted ones of the fine grid, and the interpolated solution is right up to (pi f)^2 (dx^2 + dy^2) / 2.  solve() with this transfer between the first two levels returns, after sufficiently many iterations, sequential time stepping on the fine grid, which on square grids is within t (h/2 + a (pi f)^4 dx^2 / 6) of the stated solution.", "quantifier": "all grids, vectors, frequencies, coefficients, time grids, coarse problems, cycles, initial guesses, processes in time and schedules", "why_tests_cant": "The script runs one grid; that spatial coarsening does not limit the accuracy to that of the coarse grid must hold for all.", "anchors": ["src/pymgrit/petsc/heat_2D_petsc.py: GridTransferPetsc.__init__, GridTransferPetsc.restriction, GridTransferPetsc.interpolation", "examples/petsc4py/example_heat_2d_petsc.py: main"]}
{"id": "C125", "title": "User-defined stopping criterion", "statement": "A solver class that overrides convergence_criterion as example_convergence_criterion.py does stops after the first iteration that changed the values at the C-points by less than tol percent (or after max_iter iterations), and returns the values of the plain solver after that number of iterations.  The recorded number is the largest relative change in percent, the same on all processes and for any number of processes; the returned history has one entry per iteration.  If the last recorded number is zero, the values are those of sequential time stepping; for problems on which the solver contracts with rate q, the error is at most q / (1 - q) times tol percent of the largest component.", "quantifier": "all problems, grids, numbers of components, processes, orders of the local points, tolerances, cycles and relaxations", "why_tests_cant": "That a percentage at the C-points says something about the change and the error must hold for all problems; tests run one orbit.", "anchors": ["examples/example_convergence_criterion.py: MgritCustomized.__init__, MgritCustomized.convergence_criterion", "src/pymgrit/core/mgrit.py:solve"]}
{"id": "C126", "title": "Solution files of all processes", "statement": "The output functions of the example scripts write the values of each process to a file with its rank; after solve() process 0 loads all files of the directory and sorts by time.  The loaded list has every point of the time grid once, in order, with its time and with the value of the iteration concerned (the last one if the path does not contain the iteration number), for every number of processes, order of writing and order of the directory listing; the scripts read the directories of all iterations; when process 0 returns from solve() all files are complete; different processes use different files.", "quantifier": "all problems, grids, levels, processes, schedules, orders of writes and directory listings, previous contents of the directories", "why_tests_cant": "A race between a write on one process and the read on another shows up in few schedules; tests run on one process with fresh directories.", "anchors": ["examples/example_output_fcn.py: output_fcn, main", "examples/example_heat_2d.py: output_fcn, main", "examples/example_advection.py: output_fcn, main", "examples/example_allen_cahn.py: output_fcn, main", "examples/example_arenstorf.py: output_fcn, main", "examples/petsc4py/example_heat_2d_petsc.py: output_fcn, main", "src/pymgrit/core/mgrit.py:solve", "src/pymgrit/core/mgrit.py:__init__"]}
{"id": "C127", "title": "Variables that refer to the same vector", "statement": "The operators of Vector that subclasses inherit (c * x, x += y, x -= y, x *= c) return new objects.  A program that uses arithmetic, augmented assignment, plain assignment, clone and clone_zero computes the same values as if every variable held a value of its own, although x = y lets two variables refer to one object: x += y changes x only.  With set_values as well this holds for programs that use y.clone() instead of plain assignment.", "quantifier": "all programs, memories, numbers of variables, contents and both families of vector classes (those whose clones share arrays and those that copy)", "why_tests_cant": "Whether a change is visible through another variable depends on the history of assignments; unit tests check single operations on fresh objects.", "anchors": ["src/pymgrit/core/vector.py: Vector.__rmul__, Vector.__imul__, Vector.__iadd__, Vector.__isub__", "src/pymgrit/heat/heat_1d.py: VectorHeat1D", "src/pymgrit/petsc/vector_petsc.py: VectorPetsc"]}
{"id": "C128", "title": "Reported coarsening", "statement": "The coarsening factor in the run information is the distance m of the first two C-points; the warning about non-uniform coarsening is issued exactly if the C-points of a level are not equally spaced, and by one process only.  Without a warning the coarse grid consists of every m-th point of the fine grid.  Problems from simple_setup_problem report the requested factor and never give a warning.  The reported max dt is the largest step.", "quantifier": "all hierarchies of time grids, levels, ranks and coarsening factors", "why_tests_cant": "The warning compares integers with a floating-point tolerance, which matters for large factors only.", "anchors": ["src/pymgrit/core/mgrit.py:__init__", "src/pymgrit/core/mgrit.py:ouput_run_information", "src/pymgrit/core/simple_setup_problem.py: simple_setup_problem"]}
{"id": "C129", "title": "Optimization on top of parallel runs", "statement": "In the optimization workflow (one process runs the optimizer, the others run the solver) every evaluation of the objective function uses the mesh of the point the optimizer asked for on all workers, the optimizer sees the same values as if the objective function were evaluated sequentially, and the workflow ends: nobody waits for ever, every worker leaves its loop and no broadcast stays unreceived.  The means in the objective function go over the time points of the requested region and at most one point in front of it.", "quantifier": "all schedules, numbers of workers, optimizers (adaptive strategies), objective functions, numbers of accesses to the mesh during a run, and time grids", "why_tests_cant": "The mesh is a file that one process writes while others may still read the previous one; whether that happens depends on the relative speed of the processes.", "anchors": ["examples/optimize_geometry_im/optimization_workflow.py: objx, worker, run_mgrit, AtMgritCustomized.solve, AtMgritCustomized.find_nearest, AtMgritCustomized.nested_iteration"]}
{"id": "C130", "title": "Time grids of the levels in double precision", "statement": "Applications constructed with the same t_start and t_stop and with numbers of time intervals that divide each other form a hierarchy the solver accepts: the times increase strictly, every coarse time is bit for bit a time of the finer level, and all levels start at the same time.  The distribution of the time points over the processes is not affected by rounding.", "quantifier": "all start and end times, numbers of time points and levels (steps larger than the rounding errors), numbers of processes up to the number of time points, up to 2^51 time points", "why_tests_cant": "The levels compute their times independently with roundings, and the constructor compares them for equality; whether they agree depends on the last bits for every single combination of interval and numbers of points.", "anchors": ["src/pymgrit/core/application.py: Application.__init__", "src/pymgrit/core/mgrit.py:__init__", "src/pymgrit/core/mgrit.py:split_into"]}
{"id": "C131", "title": "NaN and infinite values never count as convergence", "statement": "If solve() stops before max_iter, the values the criterion looked at are numbers below the tolerance at every C-point, whatever the norm in time (t_norm 1, 2 or 3) and the order in which the norm is summed, and no returned value is NaN or infinite.  A run in which a NaN or an overflow occurs performs max_iter iterations and records a value that is not below the tolerance.", "quantifier": "all vectors of double precision numbers including NaN, infinities and subnormal numbers, orders of summation, time steppers that do not turn NaN into numbers, hierarchies, process counts and interleavings", "why_tests_cant": "NaN compares false with everything, so a single comparison written the other way round or a reduction that ignores NaN makes a diverged run look converged; whether that can happen depends on where the NaN appears and on the order of all additions.", "anchors": ["src/pymgrit/core/mgrit.py:convergence_criterion", "src/pymgrit/core/mgrit.py:compute_residual", "src/pymgrit/core/mgrit.py:compute_jump", "src/pymgrit/core/mgrit.py:solve"]}
{"id": "C132", "title": "Several solvers in one program", "statement": "A program executed by all processes may create several solvers on the same communicator, call solve() of them in any order and repeatedly, and decide by the number of iterations and the recorded convergence values how to go on.  It ends without deadlock, exception or messages that are not received, all processes take the same decisions, and every solver shows the results it has on one process; solvers do not disturb each other although they use the same tags.", "quantifier": "all programs of this kind, solvers, hierarchies, process counts, decisions and interleavings (processes may be in different solvers at the same time)", "why_tests_cant": "Messages of different solvers carry equal tags, and nothing separates two solvers in time; whether one is taken for the other depends on the schedule and on the whole history of the program.", "anchors": ["src/pymgrit/core/mgrit.py:__init__", "src/pymgrit/core/mgrit.py:solve", "src/pymgrit/core/mgrit.py:send", "src/pymgrit/core/mgrit.py:receive", "src/pymgrit/core/mgrit.py:clean_up"]}
{"id": "C133", "title": "Lines, triangles and version of the mesh files of the induction machine", "statement": "GridTransferMachine reads all lines and triangles of a mesh file with their nodes (elements with other numbers of nodes are left out); each can be looked up by its name and by its nodes; the array of the boundary has every node of a line once, in the order of the names, and the array of triangles has the positions of their nodes.  For files of version 4 the constructor never fails because of lines and triangles, and the transfer does not depend on them.", "quantifier": "all mesh files with blocks of elements, all pre-processing files, triangulations and conversions of numbers", "why_tests_cant": "The shipped meshes are a handful of files; whether a mesh is read depends on the order and sizes of its blocks and on where its nodes lie.", "anchors": ["src/pymgrit/induction_machine/helper.py:get_elements", "src/pymgrit/induction_machine/helper.py:check_version", "src/pymgrit/induction_machine/helper.py:get_arrays", "src/pymgrit/induction_machine/helper.py:compute_data", "src/pymgrit/induction_machine/grid_transfer_machine.py:__init__"]}
{"id": "C134", "title": "Commands given to GetDP", "statement": "In every step of InductionMachine the two processes that are started are the given GetDP program, with the given model, the mesh, the temporary files, the end of the step, the time step and every option of the constructor with its value, each as one argument; the mesh lies where the constructor reads the unknowns, and the file of the preprocessing that is read is the one GetDP writes.", "quantifier": "all paths, names, options, values and times", "why_tests_cant": "The command is one text that a shell splits into words; whether the words are the intended ones depends on every character of paths and values, and the tests use one installation or none.", "anchors": ["src/pymgrit/induction_machine/induction_machine.py:__init__", "src/pymgrit/induction_machine/induction_machine.py:run_getdp", "src/pymgrit/induction_machine/helper.py:is_numeric"]}
{"id": "C135", "title": "Values and criterion of the geometry optimization", "statement": "The torque and the losses returned by a run of the geometry optimization are the values at all points of the time grid in the order of time, and the recorded history of its convergence criterion does not depend on the number of processes.  The run counts as converged if and only if at every point from the beginning of the region of interest on the losses changed by less than the tolerance, in percent of the new value.", "quantifier": "all time grids, process counts, regions, tolerances and sequences of approximations", "why_tests_cant": "The values are collected from all processes by position; whether position and time agree has to hold for every distribution of every grid, and the criterion for every sequence of approximations.", "anchors": ["examples/optimize_geometry_im/optimization_workflow.py:AtMgritCustomized.solve", "examples/optimize_geometry_im/optimization_workflow.py:AtMgritCustomized.convergence_criterion", "examples/optimize_geometry_im/optimization_workflow.py:AtMgritCustomized.find_nearest", "src/pymgrit/core/at_mgrit.py:setup_points_and_comm_info"]}
{"id": "C136", "title": "Balance of the work between the processes", "statement": "The points of every level are spread evenly: on a level with n points every one of P processes owns n/P points, rounded down or up, so that no process is idle on a level with at least P points and no process owns two points of a level with at most P points.  The numbers of C-points of two processes differ by at most one, those of F-points by at most two.", "quantifier": "all hierarchies, numbers of points and processes, levels, ranks", "why_tests_cant": "Only the points of the finest level are divided; that the blocks stay balanced on every coarser level depends on the remainders of the block boundaries modulo the coarsening and has to hold for all sizes, coarsening factors and process counts.", "anchors": ["src/pymgrit/core/mgrit.py:setup_points_and_comm_info", "src/pymgrit/core/mgrit.py:split_into", "src/pymgrit/core/simple_setup_problem.py:simple_setup_problem"]}
{"id": "C137", "title": "Application objects whose step() depends on the earlier calls", "statement": "step() need not be a function of its arguments: iterative solvers inside the application start from the result of the previous call, made at another time point, level or iterate. If every call, whatever calls came before, is within eps of an ideal step for which MGRIT converges, then after m iterations the values are within q^m times the initial error plus an explicit multiple of (number of points) * eps of the ideal time stepping; a run that stopped because of tol has ideal residuals below tol + eps; two runs with different histories of calls differ by at most the two bounds together. The result does depend on the history: the same problem solved after different earlier calls can give different values with reported residual zero in both runs.", "quantifier": "all application objects with state, histories of calls before and during the run, hierarchies, cycle types, relaxations, numbers of iterations, initial guesses", "why_tests_cant": "The order of the calls of a cycle determines from which value each inner solve starts; a test sees one order and one history, and a test of step() alone cannot see that the F-points, residuals and right-hand sides of one iteration are computed with different versions of the same step.", "anchors": ["src/pymgrit/core/mgrit.py:f_relax", "src/pymgrit/core/mgrit.py:c_relax", "src/pymgrit/core/mgrit.py:fas_residual", "src/pymgrit/core/mgrit.py:forward_solve", "src/pymgrit/core/mgrit.py:compute_residual", "src/pymgrit/core/mgrit.py:solve", "src/pymgrit/firedrake/burgers_firedrake.py:Burgers1D", "src/pymgrit/firedrake/diffusion_2d_firedrake.py:Diffusion2D"]}
{"id": "C138", "title": "Calls of step() that depend on each other: how much of a run is sequential", "statement": "With a vector class that carries a number (step() adds one, sums and differences take the larger number, transfers keep it), the numbers of the returned vectors are the lengths of the longest chains of calls of step() each of which needs the result of the one before. The numbers do not change the run. On any number of processes and for every order of the communication, each iteration prolongs the chains by an amount that depends on the coarsening factors, the relaxation and the cycle, but not on the number of time points; the sequential sweeps over the coarsest level count only once, with the number of coarsest intervals up to the point, however many iterations are made, and never less. On one level the chain of point i has length i. With AT-MGRIT and distance k the coarsest level adds at most k - 1 per solve and nothing depends on the number of points.", "quantifier": "all problems, hierarchies without neighbouring C-points, relaxations, cycle types, numbers of iterations and processes, executions", "why_tests_cant": "The length of the chains is a statement about all data dependencies of a run; timings on one machine only show one schedule, and whether the coarsest sweeps of successive iterations can overlap is not visible in the values.", "anchors": ["src/pymgrit/core/mgrit.py:f_relax", "src/pymgrit/core/mgrit.py:c_relax", "src/pymgrit/core/mgrit.py:fas_residual", "src/pymgrit/core/mgrit.py:error_correction", "src/pymgrit/core/mgrit.py:forward_solve", "src/pymgrit/core/mgrit.py:nested_iteration", "src/pymgrit/core/mgrit.py:iteration", "src/pymgrit/core/mgrit.py:solve", "src/pymgrit/core/at_mgrit.py:forward_solve", "src/pymgrit/core/vector.py:Vector"]}
{"id": "C139", "title": "Time grids of the induction machine experiments", "statement": "The experiments keep, of an equidistant grid of n intervals, every m-th point and its predecessor as finest level and use equidistant grids of their own on the coarser levels. If all points of the complete grid are multiples of one power of two below 2^53, numpy.linspace makes no rounding error for any number of intervals dividing n, so for m >= 2 with m dividing n, and any integer factors between the coarser levels, the solver gets a valid hierarchy: increasing times, every coarse point on the next finer grid, common start. C-points and F-points of the finest level then alternate, with steps of m - 1 and of one interval, both multiples of the internal time step of the external solver, and leaving out points does not change the time-stepping values at the others. The shipped hierarchies (10753 points up to 0.01025390625, m = 42, then 257, 65, 17, 5 points) are instances. If m does not divide n the final time is lost and the hierarchy is invalid; with the final time 0.01 rounding makes it invalid.", "quantifier": "all intervals and numbers of points representable with one power of two, all factors m >= 2, all coarser hierarchies by divisibility, all step functions that compose", "why_tests_cant": "Whether independently rounded grids contain each other exactly is decided by every single point and every factor; a run of one experiment shows one interval.", "anchors": ["examples/induction_machine/induction_machine.py:run_F_FCF_17_4_4_4_4", "examples/induction_machine/induction_machine.py:run_V_F_17_17", "src/pymgrit/core/application.py:Application", "src/pymgrit/induction_machine/induction_machine.py:InductionMachine"]}
{"id": "C140", "title": "A coarsest level repeating the time points of the level above", "statement": "If the coarsest level has the same time points and the same time integrator as the level above it and the transfers between the two copy, it has no effect: after the nested iteration and any number of V- or F-cycles, with any relaxation, the values on all other levels, the residuals and the returned solution are those of the solver constructed without this level.", "quantifier": "all hierarchies of at least three levels with such a coarsest level, all time integrators, values and initial guesses, both cycle types, all relaxations and numbers of iterations, all executions on any number of processes", "why_tests_cant": "Equality has to hold for every integrator, hierarchy and number of cycles; on several processes it depends on where the boundaries fall.", "anchors": ["src/pymgrit/core/mgrit.py:Mgrit.iteration", "src/pymgrit/core/mgrit.py:Mgrit.nested_iteration", "src/pymgrit/core/mgrit.py:Mgrit.fas_residual", "src/pymgrit/core/mgrit.py:Mgrit.c_relax", "examples/petsc4py/example_gray_scott_2d_petsc.py:main"]}
