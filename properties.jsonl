{"id": "C01", "title": "Manual continuation visits exactly the requested schedule", "statement": "A 'manual' continuation step with num_cases=N (N>=2) from constants v to targets w yields, when every solve converges, exactly N guesses; in the i-th one every named constant equals v+i*(w-v)/(N-1) (or the geometric analogue for 'log' spacing), so the first equals the starting value and the last equals the target exactly; after the N-th the step ends. All named constants move in lock step.", "quantifier": "every set of named constants, every start and target value, every N, both spacings, every solver whose results converge", "why_tests_cant": "tests run one schedule length with one or two constants; the claim is over all lengths, all sets of constants and all solver outputs", "anchors": ["beluga/continuation/continuation.py:ManualStrategy.init", "beluga/continuation/continuation.py:ContinuationStrategy.next", "beluga/continuation/continuation.py:ManualStrategy.num_cases"]}
{"id": "C02", "title": "The target constant is always reached by a completed step", "statement": "Whenever a continuation step of any num_cases>=1 ends normally, the last problem that was solved had every named constant equal to its declared target.", "quantifier": "every strategy object, every number of cases including the default of one, every solver behaviour", "why_tests_cant": "tests pick num_cases greater than one; the default value and every convergence history are outside any finite sample", "anchors": ["beluga/continuation/continuation.py:ManualStrategy.__init__", "beluga/continuation/continuation.py:ManualStrategy.init", "beluga/continuation/continuation.py:BisectionStrategy.next"]}
{"id": "C03", "title": "Constants not named in a step never change", "statement": "During a continuation step of any strategy, every guess handed to the solver carries, for each constant that was not named with const(), exactly the value it had in the solution the step started from.", "quantifier": "every strategy, every set of named constants, every history of converged and failed solves, at every point of the step", "why_tests_cant": "needs an invariant over unbounded histories; a test observes one run", "anchors": ["beluga/continuation/continuation.py:ContinuationStrategy.next", "beluga/continuation/continuation.py:ContinuationStrategy.init"]}
{"id": "C04", "title": "A manual step never continues past a failed solve", "statement": "In a 'manual' step, once a solve reports converged=False the next request for a guess raises and no further problem is solved; hence if the step ends normally every solution it recorded is converged.", "quantifier": "every position at which the failure may happen, every solver output", "why_tests_cant": "the failing position and length of the run are unbounded", "anchors": ["beluga/continuation/continuation.py:ContinuationStrategy.next", "beluga/continuation/continuation.py:run_continuation_set"]}
{"id": "C05", "title": "Each guess is the nearest converged earlier solution", "statement": "The guess for the next problem is a copy of an earlier solution of the same step with only the constants replaced; it is one with the smallest L1 distance in constants to the new problem among the converged ones, the earliest on ties, and the un-converged initial guess (or an un-converged solution) is used only when no converged solution exists.", "quantifier": "every list of earlier solutions, any constants, any pattern of convergence", "why_tests_cant": "argmin with sentinel distances must be right for every list; a test checks one short list", "anchors": ["beluga/continuation/continuation.py:ContinuationStrategy.get_closest_gamma", "beluga/continuation/continuation.py:gamma_norm", "beluga/continuation/continuation.py:ContinuationStrategy.next"]}
{"id": "C06", "title": "Bisection keeps the schedule on the path from start to target", "statement": "In a 'bisection' step, after any history of successes and failures, the pending schedule still starts at the starting value, ends at the target, is monotone, has as many entries as the reported number of cases, and all named constants have the same fractional progress; every guess ever emitted therefore lies on the segment between start and target.", "quantifier": "all histories of convergence and failure of any length, any number of named constants, any num_cases>=2, num_divisions>=1, both spacings", "why_tests_cant": "the schedule is rewritten at run time by each failure; the number of rewrite histories is infinite", "anchors": ["beluga/continuation/continuation.py:BisectionStrategy.next"]}
{"id": "C07", "title": "Bisection ends only with a converged solution at the target", "statement": "If a 'bisection' step ends normally, the last recorded solution is converged and was solved at the target constants, whatever failures occurred on the way.", "quantifier": "all histories, any configuration with num_cases>=2 and num_divisions>=1", "why_tests_cant": "requires an invariant linking the counter, the rewritten schedule and the last solution over all histories", "anchors": ["beluga/continuation/continuation.py:BisectionStrategy.next", "beluga/continuation/continuation.py:ContinuationStrategy.next"]}
{"id": "C08", "title": "Bisection subdivides between the last success and the failed case", "statement": "After a failure the next guess lies strictly between the constants of the last converged case and the failed case (num_divisions>=2), and the failed case stays in the schedule and is retried later.", "quantifier": "every history, every start/target, every num_divisions>=2", "why_tests_cant": "index arithmetic on a growing list; off-by-one errors appear only for particular histories", "anchors": ["beluga/continuation/continuation.py:BisectionStrategy.next"]}
{"id": "C09", "title": "max_divisions bounds consecutive bisections", "statement": "A 'bisection' step performs at most max_divisions subdivisions without an intervening success; the next failure raises RuntimeError instead of looping.", "quantifier": "every history and every max_divisions", "why_tests_cant": "a test would check one value of max_divisions", "anchors": ["beluga/continuation/continuation.py:BisectionStrategy.next", "beluga/continuation/continuation.py:BisectionStrategy.__init__"]}
{"id": "C10", "title": "Bisection always terminates", "statement": "For every solver behaviour a 'bisection' step ends (normally or by exception) after finitely many solves.", "quantifier": "every infinite sequence of solver outcomes", "why_tests_cant": "non-termination cannot be observed by a finite test", "anchors": ["beluga/continuation/continuation.py:BisectionStrategy.next", "beluga/continuation/continuation.py:run_continuation_set"]}
{"id": "C11", "title": "A failing first case is reported, not bisected", "statement": "In 'bisection', 'productspace' and 'sparse_product' steps, if the very first problem of the step fails, the next request raises RuntimeError.", "quantifier": "every configuration and every solver output", "why_tests_cant": "relies on counter values under all configurations", "anchors": ["beluga/continuation/continuation.py:BisectionStrategy.next", "beluga/continuation/continuation.py:ProductStrategy.next", "beluga/continuation/continuation.py:SparseProductStrategy.next"]}
{"id": "C12", "title": "productspace covers the full grid exactly once", "statement": "A 'productspace' step with k constants and n subdivisions emits exactly n**k cases, namely every point of the Cartesian product of the per-constant linear grids, each exactly once, beginning at the starting constants; failures after the first case do not stop it.", "quantifier": "every k, n, start and target values and every convergence history", "why_tests_cant": "the grid has unbounded dimension and size", "anchors": ["beluga/continuation/continuation.py:ProductStrategy.init", "beluga/continuation/continuation.py:ProductStrategy.next"]}
{"id": "C13", "title": "sparse_product visits every major grid point with bounded jumps", "statement": "A 'sparse_product' step visits every point of the major grid exactly once as a major point, starting from the starting point, and consecutive cases along a line differ in one constant only by one minor increment; the number of cases equals the length of the schedule.", "quantifier": "every number of constants, every major and minor subdivision counts", "why_tests_cant": "nested construction over unboundedly many dimensions", "anchors": ["beluga/continuation/continuation.py:SparseProductStrategy.init", "beluga/continuation/continuation.py:SparseProductStrategy.next"]}
{"id": "C14", "title": "Continuation steps can be reused", "statement": "Running the same list of continuation steps a second time from another starting solution gives the schedule that a freshly built list would give.", "quantifier": "every strategy, every pair of starting solutions, every history of the first run", "why_tests_cant": "needs equality of behaviours over all first-run histories", "anchors": ["beluga/continuation/continuation.py:ContinuationStrategy.reset", "beluga/continuation/continuation.py:ManualStrategy.init", "beluga/continuation/continuation.py:ProductStrategy.init", "beluga/continuation/continuation.py:SparseProductStrategy.init"]}
{"id": "C15", "title": "Steps are chained through the last solution", "statement": "With several continuation steps, each step starts from the last solution of the previous one; the result has one list per step, in order, containing exactly the solutions returned by the solver in the order they were computed; without a step list (None) the guess is solved once and that single solution is the result.", "quantifier": "any number of steps, any strategies, any solver", "why_tests_cant": "quantifies over all step lists and all solver histories", "anchors": ["beluga/continuation/continuation.py:run_continuation_set"]}
{"id": "C16", "title": "Step registry", "statement": "add_step with a registered name appends exactly one new step of that kind and leaves earlier steps alone, a strategy object is appended as is, and an unknown name raises ValueError and adds nothing.", "quantifier": "every string, every existing list", "why_tests_cant": "string space is infinite", "anchors": ["beluga/continuation/continuation.py:ContinuationList.add_step"]}
{"id": "C17", "title": "Scaling and unscaling cancel", "statement": "With non-zero scale factors, scaling a trajectory and then unscaling it returns the same times, states, quadratures, controls, parameters and constants; with a zero factor it does not.", "quantifier": "all trajectories of any size and all non-zero factors", "why_tests_cant": "an algebraic law over all sizes and values", "anchors": ["beluga/numeric/data_classes/NumericProblem.py:NumericProblem.compile_scaling", "beluga/continuation/continuation.py:run_continuation_set"]}
{"id": "C18", "title": "Autoscaling does not change the problem", "statement": "If the equations are dimensionally consistent with the declared units, evaluating them on scaled arguments gives the scaled result, so a trajectory solves the scaled problem exactly when the unscaled trajectory solves the original one.", "quantifier": "every dimensionally consistent expression, every choice of positive unit sizes", "why_tests_cant": "induction over all expressions; tests use fixed examples", "anchors": ["beluga/numeric/data_classes/NumericProblem.py:NumericProblem.compile_scaling", "beluga/continuation/continuation.py:run_continuation_set"]}
{"id": "C19", "title": "Solution maps are undone by their inverses", "statement": "For each transformation applied to a problem, mapping a guess forward and its result backward returns the original time, states, costates, controls and parameters.", "quantifier": "all trajectories of any number of points, states, controls and costates", "why_tests_cant": "round-trip law over all shapes", "anchors": ["beluga/numeric/data_classes/trajectory_mappers.py:MomentumShiftMapper", "beluga/numeric/data_classes/trajectory_mappers.py:DualizeMapper", "beluga/numeric/data_classes/trajectory_mappers.py:NormalizeTimeMapper", "beluga/numeric/data_classes/trajectory_mappers.py:DifferentialControlMapper", "beluga/numeric/data_classes/trajectory_mappers.py:SquashToBVPMapper", "beluga/numeric/data_classes/trajectory_mappers.py:MF"]}
{"id": "C20", "title": "Chained solution maps compose in reverse order", "statement": "map_sol applies the mappers of all transformations in order and its inverse applies the inverses in the reverse order, so a chain of individually invertible mappers is invertible; for the indirect method's chain the user's trajectory is recovered.", "quantifier": "every chain length and every trajectory", "why_tests_cant": "quantifies over all pipelines", "anchors": ["beluga/symbolic/data_classes/symbolic_problem.py:Problem.map_sol", "beluga/symbolic/data_classes/mapping_functions.py:make_indirect_method"]}
{"id": "C21", "title": "Time normalisation recovers the original time", "statement": "After NormalizeTime, the normalised time runs from 0 to 1 and the inverse map returns the original time stamps.", "quantifier": "every trajectory with distinct end times, including a non-zero initial time", "why_tests_cant": "tests use initial time zero", "anchors": ["beluga/numeric/data_classes/trajectory_mappers.py:NormalizeTimeMapper"]}
{"id": "C22", "title": "Trigonometric control bounds are respected and invertible", "statement": "With the 'epstrig' method, every control value reported to the user lies within the declared bounds, whatever the internal value, and mapping a feasible control guess forward and back returns the guess.", "quantifier": "all real internal control values and all bounds lower<upper", "why_tests_cant": "claims over all reals", "anchors": ["beluga/numeric/data_classes/trajectory_mappers.py:EpsTrigMapper", "beluga/symbolic/data_classes/mapping_functions.py:EpsTrig"]}
{"id": "C23", "title": "UTM penalty is a barrier", "statement": "The utility term that 'utm' adds to the cost for lower<=expr<=upper is zero at the middle of the interval, non-negative inside it, strictly increasing towards either bound and unbounded as the expression approaches a bound.", "quantifier": "all bounds lower<upper, all interior values, all positive activators", "why_tests_cant": "limits and inequalities over the reals", "anchors": ["beluga/symbolic/data_classes/mapping_functions.py:UTM"]}
{"id": "C24", "title": "Every two-sided inequality is regularised exactly once", "statement": "The indirect pipeline adds one penalty term per two-sided constraint, removes each such constraint from the problem exactly once, leaves equality constraints untouched in their order, and does not fail.", "quantifier": "every list of initial, path and terminal constraints with methods 'utm' or 'epstrig'", "why_tests_cant": "quantifies over all mixtures and orders of constraints", "anchors": ["beluga/symbolic/data_classes/mapping_functions.py:UTM", "beluga/symbolic/data_classes/mapping_functions.py:EpsTrig", "beluga/symbolic/data_classes/mapping_functions.py:make_indirect_method"]}
{"id": "C25", "title": "Quantities are completely eliminated and mean the same", "statement": "After ApplyQuantities no quantity symbol occurs in any equation, constraint or cost, whatever the order in which (acyclic) quantities were declared, and every equation evaluates to the same value as before when the quantities take their defined values.", "quantifier": "every acyclic set of quantities in any declaration order and every expression", "why_tests_cant": "all substitution orders and depths", "anchors": ["beluga/symbolic/data_classes/mapping_functions.py:ApplyQuantities", "beluga/symbolic/data_classes/symbolic_problem.py:Problem.subs_all"]}
{"id": "C26", "title": "Switches select the active function", "statement": "A switch expression tends, as its tolerance goes to zero, to the function whose conditions are all satisfied, when exactly one function's conditions hold and the others' fail.", "quantifier": "every number of functions and conditions per function, all condition values away from zero", "why_tests_cant": "a limit statement", "anchors": ["beluga/symbolic/data_classes/components_structures.py:SwitchStruct.sympify_self", "beluga/symbolic/data_classes/mapping_functions.py:RASHS"]}
{"id": "C27", "title": "The dual problem is Hamilton's", "statement": "After Dualize the costate rates are minus the partial derivatives of the Hamiltonian with respect to the states (and parameters), the state rates are its derivatives with respect to the costates, the transversality conditions are costate plus/minus the gradient of the augmented boundary cost, and the free-final-time condition is added.", "quantifier": "every problem: any number of states, parameters, constraints and any differentiable expressions", "why_tests_cant": "symbolic identity for all problems", "anchors": ["beluga/symbolic/data_classes/mapping_functions.py:Dualize"]}
{"id": "C28", "title": "The boundary value problem is square", "statement": "The problem handed to the solver has as many boundary conditions as unknowns (states + quadratures + parameters + multipliers).", "quantifier": "every number of states, controls, parameters, constraints and all option combinations of the indirect method", "why_tests_cant": "counts over all problems and options", "anchors": ["beluga/symbolic/data_classes/mapping_functions.py:make_indirect_method", "beluga/symbolic/data_classes/mapping_functions.py:Dualize", "beluga/symbolic/data_classes/mapping_functions.py:DifferentialControlLaw", "beluga/symbolic/data_classes/mapping_functions.py:NormalizeTime", "beluga/symbolic/data_classes/mapping_functions.py:SquashToBVP", "beluga/symbolic/data_classes/mapping_functions.py:MishchenkoFomenko"]}
{"id": "C29", "title": "Optimality is preserved along the trajectory with differential control", "statement": "With control_method='differential', along every exact solution of the generated equations the optimality conditions dH/du are constant, so the terminal conditions dH/du=0 make the control stationary at all times.", "quantifier": "every problem and every exact solution of the generated differential equations", "why_tests_cant": "statement about all solutions of an ODE", "anchors": ["beluga/symbolic/data_classes/mapping_functions.py:DifferentialControlLaw"]}
{"id": "C30", "title": "diffyg and indirect generate the same dynamics", "statement": "For the same problem method='diffyg' generates the same state and costate equations as method='indirect'.", "quantifier": "every number of states and parameters and every Hamiltonian", "why_tests_cant": "tests compare on one or two problems without free parameters", "anchors": ["beluga/symbolic/data_classes/mapping_functions.py:Dualize", "beluga/symbolic/differential_geometry/differential_geometry.py:make_hamiltonian_vector_field", "beluga/symbolic/differential_geometry/differential_geometry.py:make_standard_symplectic_form"]}
{"id": "C31", "title": "Symplectic check", "statement": "make_standard_symplectic_form always passes is_symplectic, and is_symplectic accepts only antisymmetric even-dimensional non-degenerate forms.", "quantifier": "every dimension and every matrix", "why_tests_cant": "all matrices", "anchors": ["beluga/symbolic/differential_geometry/differential_geometry.py:is_symplectic", "beluga/symbolic/differential_geometry/differential_geometry.py:make_standard_symplectic_form"]}
{"id": "C32", "title": "Time normalisation rescales every rate", "statement": "NormalizeTime multiplies the rate of every integrated quantity by the trajectory duration, so that solutions of the normalised problem are reparametrised solutions of the original.", "quantifier": "every problem including ones with quadratures and free parameters", "why_tests_cant": "statement about all ODE solutions; affected problems are outside the test set", "anchors": ["beluga/symbolic/data_classes/mapping_functions.py:NormalizeTime", "beluga/symbolic/data_classes/mapping_functions.py:SquashToBVP"]}
{"id": "C33", "title": "Problem components have unique names", "statement": "After any sequence of successful declarations (state, control, parameter, constant, quantity, ...) no two components share a name; a clashing declaration raises and adds nothing.", "quantifier": "every sequence of builder calls", "why_tests_cant": "unbounded call sequences", "anchors": ["beluga/symbolic/data_classes/symbolic_problem.py:Problem.check_for_duplicate", "beluga/symbolic/data_classes/symbolic_problem.py:Problem.state", "beluga/symbolic/data_classes/symbolic_problem.py:Problem.independent", "beluga/symbolic/data_classes/symbolic_problem.py:Problem.scale"]}
{"id": "C34", "title": "solve leaves the user's problem untouched", "statement": "Solving a problem does not alter the problem object: the same declarations are accepted afterwards as before.", "quantifier": "every problem and option set", "why_tests_cant": "observational equivalence over all later call sequences", "anchors": ["beluga/beluga.py:solve", "beluga/numeric/compilation/LocalCompiler.py:LocalCompiler", "beluga/symbolic/data_classes/mapping_functions.py:Dualize"]}
{"id": "C35", "title": "Transformation composition laws", "statement": "(f*g)(x)=f(g(x)); composition is associative; f**n applies f exactly n times (f**0 is the identity, negative n raises ValueError); f>>g is g after f; composing never changes the operands.", "quantifier": "all transformations, all n, all nestings", "why_tests_cant": "algebraic law over all terms", "anchors": ["beluga/symbolic/data_classes/mapping_functions.py:GenericFunctor"]}
{"id": "C36", "title": "The reported control minimises the Hamiltonian", "statement": "With control_method='algebraic', at each time the control returned is one of the candidate control laws and no candidate has a smaller Hamiltonian; the first is taken on ties.", "quantifier": "all candidate lists of any length and all Hamiltonian values including undefined ones", "why_tests_cant": "unbounded option lists, NaN behaviour", "anchors": ["beluga/numeric/compilation/component_compilation.py:compile_control", "beluga/numeric/data_classes/trajectory_mappers.py:AlgebraicControlMapper"]}
{"id": "C37", "title": "Finite-difference stencils are exact on polynomials", "statement": "The stencil coefficients generated for n points differentiate every polynomial of degree below n exactly, for every derivative order below n and every set of distinct grid points.", "quantifier": "all stencil sizes, orders, grids and polynomials", "why_tests_cant": "tests compare against a few tabulated stencils", "anchors": ["beluga/numeric/numerical_derivatives/finite_diff.py:gen_fin_diff_coeff", "beluga/numeric/numerical_derivatives/finite_diff.py:gen_fin_diff"]}
{"id": "C38", "title": "Spline tables interpolate smoothly", "statement": "A 1-D spline table returns the tabulated value at every tabulated abscissa, is twice continuously differentiable between the first and last abscissa, has zero curvature at both ends, and its derivative functions are the derivatives of its value.", "quantifier": "all tables of at least two points with increasing abscissae and all arguments in range", "why_tests_cant": "real analysis over all tables", "anchors": ["beluga/symbolic/special_functions/tables.py:TableSpline1D"]}
{"id": "C39", "title": "Trajectory interpolation", "statement": "Calling a trajectory at one of its time stamps returns the stored point, between two stamps a convex combination of neighbours, outside the range it raises, and an empty trajectory gives empty results.", "quantifier": "all trajectories with distinct times and all query times", "why_tests_cant": "unbounded sizes and real queries", "anchors": ["beluga/numeric/data_classes/Trajectory.py:Trajectory.__call__"]}
{"id": "C40", "title": "Quadrature reconstruction starts at the given value", "statement": "reconstruct returns one quadrature row per time point, the first equal to the given initial value, later ones differing from it by the cumulative integral, independent of the initial value.", "quantifier": "all trajectories, all quadrature functions, all initial values", "why_tests_cant": "law over all inputs", "anchors": ["beluga/numeric/ivp_solvers/ivpsol.py:reconstruct"]}
{"id": "C41", "title": "integrate_quads integrates over exactly the requested span", "statement": "The grid used by integrate_quads starts at the first and ends at the last requested time and contains exactly the trajectory's time stamps strictly between them, in increasing order.", "quantifier": "all increasing time grids and all sub-spans", "why_tests_cant": "index computations for all grids", "anchors": ["beluga/numeric/ivp_solvers/ivpsol.py:integrate_quads"]}
{"id": "C42", "title": "Shooting converged means boundary conditions hold", "statement": "If the shooting solver reports converged=True then the boundary conditions and the continuity of the arcs evaluated on the returned trajectory are satisfied to the tolerance, for every root-finding algorithm option.", "quantifier": "all problems, all arcs, all algorithms, all iteration histories", "why_tests_cant": "requires invariants of the iteration over all behaviours of the residual", "anchors": ["beluga/numeric/bvp_solvers/Shooting.py:Shooting.solve"]}
{"id": "C43", "title": "Shooting iteration is bounded", "statement": "The Armijo iteration performs at most max_iterations Newton updates, each with at most five residual evaluations in the line search, and stops when the error exceeds max_error.", "quantifier": "all residual functions and all option values", "why_tests_cant": "termination for all functions", "anchors": ["beluga/numeric/bvp_solvers/Shooting.py:Shooting.solve"]}
{"id": "C44", "title": "Arcs are packed, shot and stitched consistently", "statement": "Packing and unpacking the shooting unknowns are inverse, arcs split [t0,tf] without gaps, quadratures are continuous across arcs after propagation, and the returned trajectory contains each junction exactly once.", "quantifier": "any number of arcs, states, quadratures and parameters", "why_tests_cant": "index arithmetic over all sizes", "anchors": ["beluga/numeric/bvp_solvers/Shooting.py:Shooting._wrap_y0", "beluga/numeric/bvp_solvers/Shooting.py:Shooting._unwrap_y0", "beluga/numeric/bvp_solvers/Shooting.py:Shooting._make_gammas", "beluga/numeric/bvp_solvers/Shooting.py:Shooting.solve"]}
{"id": "C45", "title": "Parallel shooting equals serial shooting", "statement": "Using several CPUs gives the same propagated arcs as using one.", "quantifier": "all arcs and problems", "why_tests_cant": "tests run serially only", "anchors": ["beluga/numeric/bvp_solvers/Shooting.py:Shooting._make_gammas_parallel", "beluga/numeric/bvp_solvers/Shooting.py:Shooting._make_gammas"]}
{"id": "C46", "title": "The collocation solver's answer is the user's answer", "statement": "SPBVP hands scipy a stacked problem equivalent to the declared one, and unstacks a solution so that states, quadratures, parameters and multipliers satisfy the declared boundary conditions whenever scipy's answer satisfies the stacked ones; constants are passed through unchanged and the input guess is not modified.", "quantifier": "any numbers of states, quadratures, parameters and multipliers", "why_tests_cant": "plumbing over all shapes", "anchors": ["beluga/numeric/bvp_solvers/SPBVP.py:SPBVP.solve"]}
{"id": "C47", "title": "Changing the problem functions never leaves stale derived functions", "statement": "After any sequence of setter calls on a BVP algorithm, the multiple-shooting and sensitivity functions used in the next solve are those derived from the currently set functions.", "quantifier": "all setter/solve sequences", "why_tests_cant": "cache invalidation over unbounded histories", "anchors": ["beluga/numeric/bvp_solvers/BaseAlgorithm.py:BaseAlgorithm", "beluga/numeric/bvp_solvers/Shooting.py:Shooting.solve"]}
{"id": "C48", "title": "Boundary constants follow the guess", "statement": "Before continuation, a constant named <state>_0 (resp. <state>_f) is set to the initial (resp. terminal) value of that state in the guess, every other constant keeps its value.", "quantifier": "any lists of states and constants and any trajectory", "why_tests_cant": "name matching over all lists", "anchors": ["beluga/continuation/guess_generators.py:match_constants_to_states"]}
{"id": "C49", "title": "The initial guess uses what the user supplied", "statement": "The 'auto' and 'ones' guess generators start from the supplied initial state, integrate in the requested direction for the requested duration, and use the supplied costate, control and parameter guesses.", "quantifier": "all guesses, scalar or vector, and both directions", "why_tests_cant": "option combinations outside the tests", "anchors": ["beluga/continuation/guess_generators.py:GuessGenerator"]}
{"id": "C50", "title": "solve dispatch and reporting", "statement": "solve accepts exactly the documented methods, rejects n_cpus<1 and a missing problem, returns one post-processed trajectory for every computed one in the same arrangement, writes the result file only if asked and only after success.", "quantifier": "all argument combinations and all solver outcomes", "why_tests_cant": "argument space and failure points", "anchors": ["beluga/beluga.py:solve", "beluga/beluga.py:postprocess_continuations"]}
{"id": "C51", "title": "Saved data can be loaded", "statement": "load returns exactly what save wrote, with keys only for the items given; a failed save does not destroy a previously saved file.", "quantifier": "all combinations of items, failure at any point of saving", "why_tests_cant": "crash points", "anchors": ["beluga/utils/storage.py:save", "beluga/utils/storage.py:load"]}
{"id": "C52", "title": "Recursive substitution reaches a fixpoint", "statement": "For an acyclic replacement table recursive_sub returns an expression free of table keys together with True; whenever it returns True the expression is unchanged by a further substitution.", "quantifier": "all acyclic tables in any order and all expressions", "why_tests_cant": "depth unbounded", "anchors": ["beluga/utils/helper_functions.py:recursive_sub"]}
{"id": "C53", "title": "Constants of motion are conserved", "statement": "Every constant of motion that the differential-geometric dualisation registers for a symmetry, including the time symmetry registered by MomentumShift, keeps its value along every solution of the generated equations.", "quantifier": "all problems, all symmetries of the state equations and all solutions", "why_tests_cant": "conservation along all solutions; holds for the shipped examples because their path cost does not contain the time", "anchors": ["beluga/symbolic/data_classes/mapping_functions.py:MomentumShift", "beluga/symbolic/data_classes/mapping_functions.py:Dualize", "beluga/symbolic/differential_geometry/differential_geometry.py:noether"]}
{"id": "C54", "title": "MomentumShift keeps the problem", "statement": "After MomentumShift the solutions are the former ones with the independent variable as an additional state that equals the time; no right-hand side contains the new independent variable; every other part of the problem is unchanged.", "quantifier": "all problems and all curves", "why_tests_cant": "statement about all solutions", "anchors": ["beluga/symbolic/data_classes/mapping_functions.py:MomentumShift"]}
{"id": "C55", "title": "Exterior derivative and Poisson bracket", "statement": "exterior_derivative of a function is its differential, of a one-form the antisymmetric matrix of mixed differences, applied twice it gives zero; the bracket formed with an antisymmetric form is antisymmetric.", "quantifier": "all expressions, bases and forms", "why_tests_cant": "identities for all expressions and dimensions", "anchors": ["beluga/symbolic/differential_geometry/differential_geometry.py:exterior_derivative", "beluga/symbolic/differential_geometry/differential_geometry.py:make_hamiltonian_vector_field"]}
{"id": "C56", "title": "Compiled functions evaluate the symbolic equations", "statement": "derivative, quadrature and boundary functions that NumericProblem compiles return, in order of declaration, the values of the corresponding symbolic equations at the point given by the arrays, with the compiled control inserted; every problem that the symbolic part produces can be evaluated.", "quantifier": "all problems and all argument arrays", "why_tests_cant": "argument order and binding for every problem size and option", "anchors": ["beluga/numeric/data_classes/NumericProblem.py:NumericProblem.compile_deriv_func", "beluga/numeric/data_classes/NumericProblem.py:NumericProblem.compile_bc", "beluga/numeric/compilation/LocalCompiler.py:LocalCompiler.lambdify"]}
{"id": "C57", "title": "Analytical Jacobians are derivatives", "statement": "The Jacobians compiled when analytical_jacobian is requested are the partial derivatives of the compiled derivative and boundary functions with respect to states and parameters.", "quantifier": "all problems, control methods and points", "why_tests_cant": "statement about derivatives at all points", "anchors": ["beluga/symbolic/data_classes/mapping_functions.py:ComputeAnalyticalJacobians", "beluga/numeric/data_classes/NumericProblem.py:NumericProblem.compile_deriv_jac_func", "beluga/numeric/data_classes/NumericProblem.py:NumericProblem.compile_bc_jac_func"]}
{"id": "C58", "title": "Fixed-step propagation grid", "statement": "With variable_step=False the propagator asks for a grid that starts at the first and ends at the last requested time, increases strictly and never steps by more than maxstep; an empty or backward span raises.", "quantifier": "all spans and step sizes", "why_tests_cant": "index computations for all spans", "anchors": ["beluga/numeric/ivp_solvers/ivpsol.py:Propagator.__call__"]}
{"id": "C59", "title": "Analytical Jacobians passed to the collocation solver belong to the problem passed to it", "statement": "If the user's (or the compiled) Jacobians are the partial derivatives of the declared equations and boundary conditions, then the Jacobians SPBVP hands to scipy are the partial derivatives of the stacked equations and boundary conditions it hands to scipy, in the shape scipy documents.", "quantifier": "any numbers of states, quadratures, parameters and multipliers; all nodes", "why_tests_cant": "array shapes and broadcasting over all sizes; a wrong Jacobian only slows or misleads the iteration", "anchors": ["beluga/numeric/bvp_solvers/SPBVP.py:SPBVP.solve"]}
{"id": "C60", "title": "A trajectory returned by the collocation solver can be evaluated", "statement": "A trajectory returned by SPBVP.solve can be evaluated (called) at every time between its first and last time, whatever mesh scipy chose.", "quantifier": "all guesses, meshes and times", "why_tests_cant": "depends on scipy changing the mesh, which small tests do not trigger", "anchors": ["beluga/numeric/bvp_solvers/SPBVP.py:SPBVP.solve", "beluga/numeric/data_classes/Trajectory.py:Trajectory.__call__"]}
{"id": "C61", "title": "A supplied trajectory can be used again", "statement": "Making a guess from a supplied trajectory (mode 'static') leaves that trajectory and the generator unchanged, so that a second solve with them starts from the same guess.", "quantifier": "all trajectories, option combinations and mapper chains", "why_tests_cant": "aliasing that only shows on the second use", "anchors": ["beluga/continuation/guess_generators.py:GuessGenerator.static", "beluga/numeric/data_classes/trajectory_mappers.py", "beluga/symbolic/data_classes/symbolic_problem.py:Problem.map_sol"]}
{"id": "C62", "title": "Derivatives of user functions", "statement": "Whenever the symbolic part differentiates a user function or a table, the compiled expression evaluates the numerical derivative of that function with respect to that argument, to that order, with the differentiation method the user chose.", "quantifier": "all sessions: any functions, arguments and sequences of differentiations", "why_tests_cant": "name clashes need particular combinations of functions and arguments", "anchors": ["beluga/symbolic/special_functions/custom_functions.py:CustomFunction.construct_name", "beluga/symbolic/special_functions/custom_functions.py:CustomFunctionMeta.fdiff", "beluga/symbolic/special_functions/tables.py:SymTable", "beluga/numeric/compilation/LocalCompiler.py:LocalCompiler.lambdify"]}
{"id": "C63", "title": "Dimensional consistency survives the symbolic transformations", "statement": "If the problem a user writes is dimensionally consistent, then the boundary value problem that the symbolic part derives from it, with the units it declares for the symbols it introduces (shifts, costates, multipliers, control rates, final time), is dimensionally consistent, so that scaling it cannot change its solutions.", "quantifier": "all problems, unit assignments, option combinations and control methods", "why_tests_cant": "every transformation declares units by hand; consistency is a statement about all problems and all scalings", "anchors": ["beluga/symbolic/data_classes/mapping_functions.py:Dualize", "beluga/symbolic/data_classes/mapping_functions.py:MomentumShift", "beluga/symbolic/data_classes/mapping_functions.py:NormalizeTime", "beluga/symbolic/data_classes/mapping_functions.py:DifferentialControlLaw", "beluga/symbolic/data_classes/mapping_functions.py:EpsTrig", "beluga/numeric/data_classes/NumericProblem.py:NumericProblem.compile_scaling"]}
{"id": "C64", "title": "Solutions of the generated boundary value problem are extremals of the stated problem", "statement": "Every solution of the boundary value problem that the indirect method generates (states, costates, multipliers, controls by the control law, duration) is, read back in the user's time and names, an extremal of the optimal control problem the user wrote, with quantities, switches, and two-sided constraints replaced by their penalties: equations of motion, adjoint equations, stationarity, boundary conditions, and transversality for the states and both end times.", "quantifier": "all problems, all control laws sympy may return, all solutions, all durations, both control methods", "why_tests_cant": "a statement about all functions of a generated boundary value problem; tests compare a few numbers with published optima", "anchors": ["beluga/symbolic/data_classes/mapping_functions.py:make_indirect_method", "beluga/symbolic/data_classes/mapping_functions.py:Dualize", "beluga/symbolic/data_classes/mapping_functions.py:AlgebraicControlLaw", "beluga/symbolic/data_classes/mapping_functions.py:DifferentialControlLaw", "beluga/symbolic/data_classes/mapping_functions.py:NormalizeTime", "beluga/symbolic/data_classes/mapping_functions.py:MomentumShift", "beluga/symbolic/data_classes/mapping_functions.py:ApplyQuantities", "beluga/symbolic/data_classes/mapping_functions.py:UTM", "beluga/symbolic/data_classes/mapping_functions.py:EpsTrig", "beluga/symbolic/data_classes/mapping_functions.py:RASHS", "beluga/beluga.py:solve"]}
{"id": "C65", "title": "No stated inequality is ignored", "statement": "Every inequality constraint that the problem interface accepts, on the path or at either end, with a lower bound, an upper bound, or both, restricts the generated problem or is refused with an error.", "quantifier": "all problems and all combinations of bounds and options", "why_tests_cant": "the absence of an effect over all problems; a test with two-sided bounds does not see it", "anchors": ["beluga/symbolic/data_classes/symbolic_problem.py:Problem.path_constraint", "beluga/symbolic/data_classes/symbolic_problem.py:Problem.initial_constraint", "beluga/symbolic/data_classes/symbolic_problem.py:Problem.terminal_constraint", "beluga/symbolic/data_classes/mapping_functions.py:make_indirect_method", "beluga/symbolic/data_classes/mapping_functions.py:make_direct_method", "beluga/symbolic/data_classes/mapping_functions.py:UTM"]}
{"id": "C66", "title": "Units of the cost are consistent", "statement": "If declared costs pass the unit check, then every declared unit fits: initial and terminal cost have one unit, the path cost that unit over the unit of the independent variable, and costates, multipliers and Hamiltonian get the units that follow; otherwise the declaration is refused.", "quantifier": "all sequences of cost declarations and all units", "why_tests_cant": "all orders of declarations; the test that would check the mismatch is commented out", "anchors": ["beluga/symbolic/data_classes/symbolic_problem.py:Problem.initial_cost", "beluga/symbolic/data_classes/symbolic_problem.py:Problem.path_cost", "beluga/symbolic/data_classes/symbolic_problem.py:Problem.terminal_cost", "beluga/symbolic/data_classes/symbolic_problem.py:Problem.set_cost", "beluga/symbolic/data_classes/components_structures.py:CostStruct.check_path_units", "beluga/symbolic/data_classes/mapping_functions.py:Dualize"]}
{"id": "C67", "title": "Complex-step derivatives converge", "statement": "A derivative function built with the complex step converges to the derivative of the user function as the step goes to zero, with first-order partial derivatives quadratically accurate; mixed and higher derivatives, which it does not support, use central differences.", "quantifier": "all functions that extend analytically, all points, arguments and steps", "why_tests_cant": "a limit statement for all functions", "anchors": ["beluga/numeric/numerical_derivatives/complex_step.py:gen_csd", "beluga/numeric/numerical_derivatives/__init__.py:gen_num_diff"]}
{"id": "C68", "title": "Reduction by constants of motion loses nothing", "statement": "With reduction=True, every solution of the reduced boundary value problem is, with the removed state and costate restored from the new quadrature and parameter, a solution of the full one, and every solution of the full one gives a solution of the reduced one.", "quantifier": "all problems with constants of motion, all solutions", "why_tests_cant": "a correspondence between the solutions of two generated problems", "anchors": ["beluga/symbolic/data_classes/mapping_functions.py:MishchenkoFomenko", "beluga/symbolic/data_classes/mapping_functions.py:make_indirect_method"]}
{"id": "C69", "title": "Messages appear from the level the user asks for", "statement": "After add_logger(display_level, file_level, filename), and after import with the default levels, messages are displayed exactly from the display level on and written to the file exactly from the file level on; calling it again replaces the settings; strings in the continuation tables keep their width.", "quantifier": "all levels, file names, earlier settings and strings", "why_tests_cant": "levels interact with Python's root logger, whose level tests never vary", "anchors": ["beluga/utils/logging.py:init_logging", "beluga/utils/logging.py:fit_string", "beluga/beluga.py:add_logger"]}
{"id": "C70", "title": "The command line runs a scenario", "statement": "beluga with a scenario file and valid options loads and solves the scenario; invalid levels or an unwritable output are reported.", "quantifier": "all option combinations", "why_tests_cant": "the entry point is never called by the tests", "anchors": ["beluga/__main__.py:main", "beluga/__main__.py:load_scenario"]}
{"id": "C71", "title": "No extremal of the stated problem is lost", "statement": "Every extremal of the optimal control problem the user wrote (with differentiable controls) gives a solution of the boundary value problem that the indirect method generates, so that the solver can find it; with the converse, the boundary value problem has exactly the extremals as solutions.", "quantifier": "all problems, all extremals, all durations, both control methods", "why_tests_cant": "existence of a solution for every function that satisfies the necessary conditions", "anchors": ["beluga/symbolic/data_classes/mapping_functions.py:make_indirect_method", "beluga/symbolic/data_classes/mapping_functions.py:Dualize", "beluga/symbolic/data_classes/mapping_functions.py:AlgebraicControlLaw", "beluga/symbolic/data_classes/mapping_functions.py:DifferentialControlLaw", "beluga/symbolic/data_classes/mapping_functions.py:NormalizeTime", "beluga/symbolic/data_classes/mapping_functions.py:MomentumShift"]}
{"id": "C72", "title": "The cost reported with a solution is the cost of that trajectory", "statement": "When a solution is mapped back to the user's problem, the number in sol.cost is the cost that the user stated, initial plus terminal plus integrated path cost, evaluated along the reported states, controls and constants.", "quantifier": "for every stated problem that the primal steps accept, every meaning of functions, every consistent completion of defined symbols, every additive quadrature rule, every sampled trajectory", "why_tests_cant": "Tests compare a cost with a number for one problem. That the compiled cost agrees with the stated cost for all problems and trajectories, after substitution of quantities, switches and bounded controls, needs an argument about every step.", "anchors": ["beluga/numeric/compilation/component_compilation.py:40-59", "beluga/numeric/data_classes/trajectory_mappers.py:112-147", "beluga/symbolic/data_classes/mapping_functions.py:196-275", "beluga/symbolic/data_classes/mapping_functions.py:300-390"]}
{"id": "C73", "title": "A returned solution samples an extremal of the stated problem", "statement": "If the numerical solver finds an exact solution of the compiled boundary value problem, then the tables that beluga returns for it (times, states, costates, controls, constants, cost) are the values, on the returned time grid, of a curve that satisfies the first-order necessary conditions of the problem the user stated.", "quantifier": "all stated problems, both control methods, with and without time normalisation, all grids, all solutions of the compiled functions, all quadrature rules", "why_tests_cant": "The chain from symbols to compiled functions to arrays and back through the mappers has to be right as a whole, for every problem; tests compare a few numbers of a few examples.", "anchors": ["beluga/beluga.py:solve", "beluga/symbolic/data_classes/mapping_functions.py:make_indirect_method", "beluga/numeric/data_classes/NumericProblem.py:NumericProblem.compile_deriv_func", "beluga/numeric/data_classes/NumericProblem.py:NumericProblem.compile_bc", "beluga/symbolic/data_classes/symbolic_problem.py:Problem.inv_map_sol", "beluga/numeric/data_classes/trajectory_mappers.py:AlgebraicControlMapper", "beluga/numeric/data_classes/trajectory_mappers.py:EpsTrigMapper", "beluga/numeric/data_classes/trajectory_mappers.py:DualizeMapper", "beluga/numeric/data_classes/trajectory_mappers.py:SquashToBVPMapper", "beluga/numeric/data_classes/trajectory_mappers.py:NormalizeTimeMapper", "beluga/numeric/data_classes/trajectory_mappers.py:MomentumShiftMapper", "beluga/numeric/data_classes/trajectory_mappers.py:DifferentialControlMapper"]}
{"id": "C74", "title": "A converged solution is an extremal up to the tolerance of the solver", "statement": "If the solver accepts a solution of the compiled boundary value problem because all boundary conditions hold up to its tolerance, then the tables that beluga returns for it are the values, on the returned time grid, of a curve that satisfies the necessary conditions of the problem the user stated up to that tolerance: equations of motion and adjoint equations along the whole path, boundary and transversality conditions up to the tolerance, stationarity exactly (algebraic control law) or up to the tolerance (differential control law).", "quantifier": "all stated problems, tolerances, control methods, grids, with and without time normalisation, all solutions of the compiled functions", "why_tests_cant": "No solver returns exact solutions; that an error of the size of the tolerance in the generated conditions is an error of that size in the stated ones, and not a larger one, is a statement about all problems and all solutions.", "anchors": ["beluga/beluga.py:solve", "beluga/symbolic/data_classes/mapping_functions.py:make_indirect_method", "beluga/symbolic/data_classes/mapping_functions.py:Dualize", "beluga/symbolic/data_classes/mapping_functions.py:DifferentialControlLaw", "beluga/numeric/data_classes/NumericProblem.py:NumericProblem.compile_bc", "beluga/numeric/bvp_solvers/Shooting.py:Shooting.solve", "beluga/symbolic/data_classes/symbolic_problem.py:Problem.inv_map_sol"]}
{"id": "C75", "title": "A converged shooting run gives an extremal up to its tolerance, with and without autoscaling", "statement": "If the shooting solver reports convergence for the compiled boundary value problem and its propagation follows the compiled differential equations, then what beluga returns samples a curve that satisfies the necessary conditions of the stated problem up to the solver's tolerance; if the problem was scaled before solving, up to the tolerance times the largest unit of a boundary condition.", "quantifier": "all stated problems, guesses, tolerances, Newton linear solvers, step rules, grids, all positive unit sizes of dimensionally consistent problems", "why_tests_cant": "It composes symbolic derivation, code generation, scaling, multiple shooting and the mapping back; a test exercises one problem with one scaling and sees numbers, not the conditions they satisfy.", "anchors": ["beluga/beluga.py:solve", "beluga/numeric/bvp_solvers/Shooting.py:Shooting.solve", "beluga/numeric/data_classes/NumericProblem.py:NumericProblem.compile_scaling", "beluga/symbolic/data_classes/symbolic_problem.py:Problem.inv_map_sol", "beluga/continuation/continuation.py:run_continuation_set"]}
{"id": "C76", "title": "Returned controls satisfy the minimum principle", "statement": "At every time of a returned solution the controls minimise the Hamiltonian of the stated problem over all controls (Pontryagin's principle), not only make it stationary.", "quantifier": "all stated problems, times, states, costates and constants, all sets of candidates that sympy returns", "why_tests_cant": "Which of several stationary points is chosen depends on values along the trajectory; a test sees a solution and not the controls it was chosen from.", "anchors": ["beluga/numeric/compilation/component_compilation.py:compile_control", "beluga/symbolic/data_classes/mapping_functions.py:AlgebraicControlLaw", "beluga/symbolic/data_classes/mapping_functions.py:DifferentialControlLaw", "beluga/numeric/data_classes/trajectory_mappers.py:AlgebraicControlMapper", "beluga/numeric/data_classes/NumericProblem.py:NumericProblem.compile_deriv_func"]}
{"id": "C77", "title": "Everything that solve returns is a solution of the stated problem for the constants reported with it", "statement": "beluga.solve returns one list of trajectories per continuation step. The last trajectory of a step is converged, has the constants of the step at the targets that the user set and all other constants as before; every trajectory is the answer of the solver for the constants reported with it, computed from the guess or from an earlier answer; and a trajectory flagged as converged samples a curve that satisfies the necessary conditions of the problem the user wrote, with these constants, up to the tolerance of the solver, with the stated cost.", "quantifier": "all stated problems, continuation lists, targets, guesses, solvers that keep their promises, numbers of solutions", "why_tests_cant": "It is the composition of everything: preprocessing, indirect method, compilation, guess, continuation, shooting, mapping back. A test runs a few problems and compares end points.", "anchors": ["beluga/beluga.py:solve", "beluga/beluga.py:postprocess_continuations", "beluga/continuation/continuation.py:run_continuation_set", "beluga/numeric/bvp_solvers/Shooting.py:Shooting.solve", "beluga/symbolic/data_classes/symbolic_problem.py:Problem.inv_map_sol", "beluga/symbolic/data_classes/mapping_functions.py:make_indirect_method"]}
{"id": "C78", "title": "Well-scoped problems do not go wrong", "statement": "If every symbol of a stated problem is declared and used where it has a value, then the functions compiled from the generated boundary value problem never raise: rates, quadratures, boundary conditions and Jacobians return arrays of the right sizes for all values of their arguments; and every trajectory of the right size is mapped back to a trajectory of the stated problem with controls, costates and cost.", "quantifier": "all well-scoped problems, options, number types, values of the arguments, trajectories", "why_tests_cant": "A missing symbol shows as a NameError only when a compiled function is called for the first time, minutes into a run, and on mapping back only after the solver has converged; tests call them for a few problems.", "anchors": ["beluga/symbolic/data_classes/mapping_functions.py:make_indirect_method", "beluga/numeric/data_classes/NumericProblem.py:NumericProblem.compile_problem", "beluga/numeric/compilation/component_compilation.py:compile_control", "beluga/numeric/compilation/component_compilation.py:compile_cost", "beluga/numeric/data_classes/trajectory_mappers.py:SquashToBVPMapper", "beluga/numeric/data_classes/trajectory_mappers.py:EpsTrigMapper", "beluga/numeric/data_classes/trajectory_mappers.py:DualizeMapper", "beluga/symbolic/data_classes/symbolic_problem.py:Problem.inv_map_sol"]}
{"id": "C79", "title": "method='direct' solves the stated problem", "statement": "With method='direct' the compiled problem states the user's problem: the compiled rates are the stated rates for the controls that are searched for, the boundary conditions are the stated ones, path constraints restrict the trajectory, and the cost decides between feasible trajectories.", "quantifier": "all stated problems, options of the direct method, points, costs and path constraints", "why_tests_cant": "No test uses the direct method; a test would compare trajectories of one problem, and cannot show that the cost or a constraint never makes a difference.", "anchors": ["beluga/beluga.py:solve", "beluga/symbolic/data_classes/mapping_functions.py:make_direct_method", "beluga/symbolic/data_classes/mapping_functions.py:CompileProblem", "beluga/symbolic/data_classes/mapping_functions.py:UTM", "beluga/symbolic/data_classes/mapping_functions.py:ComputeAnalyticalJacobians", "beluga/numeric/data_classes/NumericProblem.py:NumericProblem.compile_problem"]}
{"id": "C80", "title": "A solution that the collocation solver reports as converged is an extremal up to its tolerance", "statement": "If `SPBVP` (scipy's solve_bvp behind the stacking of states and parameters) reports success for the compiled boundary value problem, and a solution of the compiled differential equations passes through the nodes of its answer, then what beluga returns samples a curve that satisfies the necessary conditions of the problem the user stated up to the tolerance, for the constants of the guess, on the whole time interval; and this holds for every call in a continuation.", "quantifier": "all stated problems, guesses, meshes, Jacobians, answers of solve_bvp that keep scipy's documented promises", "why_tests_cant": "The solver sees one vector of states and one of parameters; that what it returns is taken apart again into the right states, parameters and multipliers and belongs to the stated conditions is a statement about all problems and answers. A test sees the numbers of a few runs.", "anchors": ["beluga/numeric/bvp_solvers/SPBVP.py:SPBVP.solve", "beluga/numeric/bvp_solvers/__init__.py:bvp_algorithm", "beluga/continuation/continuation.py:run_continuation_set", "beluga/beluga.py:solve", "beluga/symbolic/data_classes/symbolic_problem.py:Problem.inv_map_sol"]}
{"id": "C81", "title": "An error of the integration is an error of the same size in the equations of the extremal", "statement": "If the curve through the returned rows follows the compiled differential equations only up to a defect d, and the boundary conditions hold up to e, then what solve returns are samples of a curve that satisfies the stated problem's equations of motion and adjoint equations up to d (in the user's time unit), its boundary and transversality conditions up to e, stationarity in the controls exactly (algebraic control law) or up to e + d times a bound of the second derivatives times the length (differential one), and whose Hamiltonian is the negative of the returned costate of time up to e plus the length times (d times a bound for the first derivatives plus the stationarity error times the speed of the controls).", "quantifier": "all optimal control problems of the class of C73, all curves, all defects and tolerances, both control methods", "why_tests_cant": "No integrator is exact; tests compare a handful of problems against references with hand-picked tolerances and cannot say how the error of the integrator enters the optimality conditions.", "anchors": ["beluga/symbolic/data_classes/mapping_functions.py:make_indirect_method", "beluga/symbolic/data_classes/mapping_functions.py:Dualize", "beluga/numeric/data_classes/NumericProblem.py:NumericProblem.compile_deriv_func", "beluga/numeric/data_classes/NumericProblem.py:NumericProblem.compile_bc", "beluga/numeric/data_classes/trajectory_mappers.py:DualizeMapper", "beluga/symbolic/data_classes/symbolic_problem.py:Problem.inv_map_sol"]}
{"id": "C82", "title": "For a convex problem the returned solution is a minimum", "statement": "If the stated problem is convex (equations of motion and boundary conditions affine in the states and controls, costs convex, bounded expressions affine), then the tables that solve returns are samples of an admissible trajectory, and no admissible trajectory over the same time has a lower cost (the cost with the penalties of the two-sided constraints). With a solver tolerance and an integration defect the cost is higher than that of any admissible trajectory at most by what these errors are worth: tolerance times distance and multipliers at the ends, defect times distance and costates along the path.", "quantifier": "all convex problems of the class of C73, all admissible competitors (continuous states, controls may jump), all tolerances and defects", "why_tests_cant": "beluga solves first-order conditions only; whether what it returns minimises anything is a comparison with all trajectories, which no test can make.", "anchors": ["beluga/symbolic/data_classes/mapping_functions.py:make_indirect_method", "beluga/symbolic/data_classes/mapping_functions.py:Dualize", "beluga/symbolic/data_classes/mapping_functions.py:AlgebraicControlLaw", "beluga/symbolic/data_classes/mapping_functions.py:DifferentialControlLaw", "beluga/symbolic/data_classes/mapping_functions.py:UTM", "beluga/symbolic/data_classes/symbolic_problem.py:Problem.inv_map_sol", "beluga/beluga.py:solve"]}
{"id": "C83", "title": "A step keeps what it is told", "statement": "Setting up a continuation step with the chained calls const, num_cases and num_subdivisions, in any order and with repetitions, gives a step whose targets are the last ones named for each constant, in the order in which the constants were first named, with the last number of cases, spacing and subdivisions; nothing else changes. Once the step runs, its number of cases and subdivisions cannot be changed. clear makes it forget its targets.", "quantifier": "all steps, chains of calls, names, targets, numbers", "why_tests_cant": "chains of calls are unbounded; a test sets a step up in one order and looks at a few attributes", "anchors": ["beluga/continuation/continuation.py:ManualStrategy.set", "beluga/continuation/continuation.py:ManualStrategy.num_cases", "beluga/continuation/continuation.py:ManualStrategy.clear", "beluga/continuation/continuation.py:ProductStrategy.num_subdivisions", "beluga/continuation/continuation.py:SparseProductStrategy.num_subdivisions"]}
{"id": "C84", "title": "A trajectory is a sequence of its points", "statement": "trajectory[i] gives time, states, quadratures and controls of one point, counted from the end for negative i, and raises IndexError beyond len(trajectory); a loop over the trajectory visits all points once, in order, and ends; trajectory[i] agrees with the value of the trajectory at the time of point i.", "quantifier": "all trajectories, indices", "why_tests_cant": "a loop that never ends cannot be observed by a test; sizes and indices are unbounded", "anchors": ["beluga/numeric/data_classes/Trajectory.py:Trajectory.__getitem__", "beluga/numeric/data_classes/Trajectory.py:Trajectory.__len__"]}
{"id": "C85", "title": "For a convex problem the returned solution is nearly optimal under the stated constraints", "statement": "beluga replaces two-sided constraints by penalties ('utm'). If the stated problem is convex, then the stated cost, without penalties, of the trajectory that is returned exceeds that of any admissible trajectory over the same time that keeps the fraction mu of each interval away from the bounds at most by activator / (2 mu) for each constraint (times the duration for those on the path), plus what the tolerance of the solver and the defect of the integration are worth: so driving the activators to zero leads to the optimum of the constrained problem.", "quantifier": "all convex problems of the class of C73, activators, margins, admissible competitors, tolerances and defects", "why_tests_cant": "a comparison with all trajectories, and a statement about the limit of small activators.", "anchors": ["beluga/symbolic/data_classes/mapping_functions.py:make_indirect_method", "beluga/symbolic/data_classes/mapping_functions.py:Dualize", "beluga/symbolic/data_classes/mapping_functions.py:UTM", "beluga/symbolic/data_classes/symbolic_problem.py:Problem.inv_map_sol", "beluga/beluga.py:solve"]}
{"id": "C86", "title": "Constraints on the path are not crossed", "statement": "If a trajectory that solve returns satisfies the two-sided constraints on the path at one of its times, then it satisfies them at all of its times: the penalty by which beluga replaces them cannot be crossed, whatever the tolerance of the solver.", "quantifier": "all problems of the class of C73 with ordered bounds and positive activators, which may change along the trajectory, all trajectories that solve the generated boundary value problem, exactly or with a defect and a tolerance", "why_tests_cant": "a constraint can be violated between the points of the grid; a test sees some points of some solutions.", "anchors": ["beluga/symbolic/data_classes/mapping_functions.py:UTM", "beluga/symbolic/data_classes/mapping_functions.py:make_indirect_method", "beluga/symbolic/data_classes/mapping_functions.py:Dualize", "beluga/symbolic/data_classes/symbolic_problem.py:Problem.inv_map_sol", "beluga/beluga.py:solve"]}
{"id": "C87", "title": "Tables and user functions can be applied to all symbols of a problem", "statement": "A table (Problem.table) or a user function (Problem.custom_function) can be applied to states, controls, constants, quantities, switches and bounded controls alike: the generated problem is the one that results from replacing quantities, switches and bounded controls by their definitions everywhere, also in the arguments of tables and user functions.", "quantifier": "all problems, options and expressions", "why_tests_cant": "which substitutions meet which arguments depends on the whole problem; the examples apply their tables to states only.", "anchors": ["beluga/symbolic/data_classes/components_structures.py:TableStruct", "beluga/symbolic/special_functions/custom_functions.py:CustomFunctionMeta", "beluga/symbolic/special_functions/tables.py:SymTableMeta", "beluga/symbolic/data_classes/mapping_functions.py:ApplyQuantities", "beluga/symbolic/data_classes/mapping_functions.py:EpsTrig", "beluga/symbolic/data_classes/mapping_functions.py:RASHS"]}
{"id": "C88", "title": "Linear boundary value problems are solved by the first Newton step", "statement": "If differential equations and boundary conditions are linear (up to constants) in states, parameters and auxiliary parameters, and the boundary value problem has a solution, then the shooting solver with its default algorithm returns one after a single iteration and reports convergence, whatever the guess, the number of arcs and the tolerance are; the returned trajectory satisfies the boundary conditions and fits together at the junctions without any error.", "quantifier": "all linear boundary value problems without quadratures, guesses, numbers of arcs, tolerances, step sizes of the differences", "why_tests_cant": "a test runs some problems from some guesses with some numbers of arcs, and sees that rounding is small; it cannot tell whether a lucky guess helped.", "anchors": ["beluga/numeric/bvp_solvers/Shooting.py:Shooting.solve", "beluga/numeric/bvp_solvers/Shooting.py:Shooting._wrap_y0", "beluga/numeric/bvp_solvers/Shooting.py:Shooting._unwrap_y0", "beluga/numeric/bvp_solvers/Shooting.py:Shooting._make_gammas", "beluga/numeric/bvp_solvers/Shooting.py:Shooting._bc_func_multiple_shooting"]}
{"id": "C89", "title": "Continuation with enough cases reaches its target", "statement": "If the solver converges whenever it starts from a solution for constants that differ little (in sum by at most some bound) from the requested ones, then a continuation step with enough cases ends at its target constants with a converged solution: with the manual strategy if the cases are spaced that closely, with bisection if the division of the cases gets that close within the allowed number of divisions. The same holds for a whole list of continuation steps run one after the other.", "quantifier": "all solvers with this property, continuation steps, initial constants, goals, numbers of cases and divisions, lists of steps", "why_tests_cant": "a test runs some solvers with some numbers of cases; that the sequence of constants, guesses and divisions never takes a step that is too long is a statement about all of them.", "anchors": ["beluga/continuation/continuation.py:ManualStrategy", "beluga/continuation/continuation.py:BisectionStrategy", "beluga/continuation/continuation.py:run_continuation_set"]}
{"id": "C90", "title": "The shooting solver converges near a regular solution", "statement": "If the boundary value problem has a solution at which the linearised problem has no solution but zero, then the shooting solver with its default algorithm, started sufficiently close to it with sufficiently small differences, takes full Newton steps, reports convergence after a number of iterations that grows with the logarithm of the tolerance, and returns a trajectory that is within a constant times the tolerance of that solution; how close the guess must be does not depend on the tolerance.", "quantifier": "all boundary value problems without quadratures with continuously differentiable flows and boundary conditions, numbers of arcs, tolerances, limits of iterations and errors, guesses in a neighbourhood", "why_tests_cant": "convergence from all guesses in a neighbourhood, at every tolerance, is a statement about infinitely many runs.", "anchors": ["beluga/numeric/bvp_solvers/Shooting.py:Shooting.solve", "beluga/numeric/bvp_solvers/Shooting.py:Shooting._wrap_y0", "beluga/numeric/bvp_solvers/Shooting.py:Shooting._unwrap_y0", "beluga/numeric/bvp_solvers/Shooting.py:Shooting._make_gammas", "beluga/numeric/bvp_solvers/Shooting.py:Shooting._bc_func_multiple_shooting"]}
{"id": "C91", "title": "Continuation with the shooting solver follows a branch of solutions", "statement": "If the boundary value problem has solutions for all constants on the way that depend continuously on the constants and at which the linearised problem has no solution but zero, then there are a radius, a step width and a constant such that, with options that allow for the tolerance, every list of continuation steps whose cases are at most the step width apart, from a guess within the radius of the first solution, runs to its end: no call of the solver raises, every step solves as many cases as it was told and no more, each of them is reported as converged, satisfies the boundary value problem for its constants within the tolerance and is within the constant times the tolerance of that branch (not of another solution), and the last one is for the constants asked for last.", "quantifier": "all boundary value problems without quadratures with continuously differentiable flows and boundary conditions, compact sets of constants, branches of regular solutions, lists of manual and bisection steps, guesses in a neighbourhood, tolerances", "why_tests_cant": "that every solution is a good enough guess for the next case, over any number of cases and steps, is a statement about infinitely many runs; a test cannot tell whether fewer cases would have jumped to another branch.", "anchors": ["beluga/continuation/continuation.py:run_continuation_set", "beluga/continuation/continuation.py:ManualStrategy", "beluga/continuation/continuation.py:BisectionStrategy", "beluga/numeric/bvp_solvers/Shooting.py:Shooting.solve", "beluga/numeric/data_classes/Trajectory.py:Trajectory.__call__"]}
{"id": "C92", "title": "Names do not matter", "statement": "If every variable, control, parameter, constant, quantity and switch of a problem gets another name, different things different names, and the names that beluga makes up from them change accordingly, then beluga makes the same boundary value problem with other names (or raises the same exception), the compiled derivative, quadrature, boundary, control and Jacobian functions return the same numbers, scaling and solving give the same numbers, and a solution is mapped back to the same numbers.", "quantifier": "all problems, options of both methods, injective renamings, kinds of constraints, points, trajectories; sympy is any function that does the same up to names", "why_tests_cant": "a name decides which symbols a substitution hits, which multiplier belongs to which condition and in which order arguments are bound; a slip shows only for the names for which it happens, and tests use the names x, y, v.", "anchors": ["beluga/symbolic/data_classes/mapping_functions.py:make_indirect_method", "beluga/symbolic/data_classes/mapping_functions.py:make_direct_method", "beluga/symbolic/data_classes/symbolic_problem.py:Problem.subs_all", "beluga/symbolic/data_classes/symbolic_problem.py:Problem.inv_map_sol", "beluga/numeric/data_classes/NumericProblem.py:NumericProblem"]}
{"id": "C93", "title": "The order of declarations does not matter", "statement": "If states, controls, constants, quantities, switches and constraints are declared in another order, a solution of the boundary value problem made for one order is, up to the numbering of the multipliers of boundary conditions, a solution of the one made for the other order, with the same states, controls, costates, time and constants; and the same cost is reported for the same trajectory.", "quantifier": "all problems (without parameters and quadratures), all permutations, options of the indirect method, solutions, trajectories", "why_tests_cant": "the order decides positions in arrays, the numbering of multipliers and the order of substitutions; there are factorially many orders, and tests declare every example in one order.", "anchors": ["beluga/symbolic/data_classes/mapping_functions.py:make_indirect_method", "beluga/symbolic/data_classes/mapping_functions.py:Dualize", "beluga/symbolic/data_classes/mapping_functions.py:UTM", "beluga/symbolic/data_classes/mapping_functions.py:EpsTrig", "beluga/numeric/compilation/component_compilation.py"]}
{"id": "C94", "title": "The brachistochrone example gives the brachistochrone", "statement": "For the problem of the brachistochrone example, every solution of the boundary value problem that beluga makes of it (without reduction by constants of motion) is a cycloid from the start to the target, run through with the speed of free fall, with the direction turning at half the rate of the rolling circle; the tables returned to the user consist of points of one cycloid. With the default options there is such a solution for every gravity and every target that is lower than the start and to the right of it.", "quantifier": "all solutions, methods, treatments of the control, with and without normalised time, gravities, targets", "why_tests_cant": "the example tests compare a few numbers at one target with stored values of an earlier run; that the curve is the right one for all targets is a statement about infinitely many runs.", "anchors": ["examples/Classic/Brachistochrone/Brachistochrone.py", "beluga/symbolic/data_classes/mapping_functions.py:make_indirect_method", "beluga/symbolic/data_classes/mapping_functions.py:Dualize", "beluga/symbolic/data_classes/mapping_functions.py:DifferentialControlLaw", "beluga/numeric/data_classes/NumericProblem.py:NumericProblem"]}
{"id": "C95", "title": "The Bryson-Denham example gives the optimum up to the activator", "statement": "For the problem of the Bryson-Denham example (turn round before a wall with the least effort), with the wall at a distance of at most 1/6, every exact solution of the boundary value problem that beluga makes of it, mapped back, gives tables of samples of a motion that satisfies the user's problem, never touches the wall, and costs at least the optimum 8/(9 x_max) and at most 8/(9 m) + epsilon1 x_max/(x_max - m) for every m below x_max; with the values of the example that is within 0.07 percent of the optimum, and the excess vanishes with the activator.", "quantifier": "all solutions, methods, treatments of the control, activators, distances of the wall up to 1/6", "why_tests_cant": "the example replaces the constraint by a penalty; a test can compare the numbers of one run, but not show that every solution stays off the wall at all times and how much every solution costs.", "anchors": ["examples/Classic/BrysonDenham/BrysonDenham.py", "beluga/symbolic/data_classes/mapping_functions.py:UTM", "beluga/symbolic/data_classes/mapping_functions.py:make_indirect_method", "beluga/symbolic/data_classes/mapping_functions.py:Dualize"]}
{"id": "C96", "title": "A strictly convex problem has one answer", "statement": "Two runs of beluga on the same problem, with any method, treatment of the control, normalisation of time, solver, guess, continuation and grid, return tables of states and controls that are samples of the same curve, if the problem is strictly convex in the controls (affine equations of motion and boundary conditions, convex costs), the initial conditions fix the states, the end times and constants agree, and both solved their boundary value problems exactly.", "quantifier": "all problems that are strictly convex between the two curves, all pairs of options, computer algebra systems, solutions, grids", "why_tests_cant": "the boundary value problems of the two runs differ in their variables and equations and may have many solutions; that all of them are the same curve for the user is a statement about all pairs of runs.", "anchors": ["beluga/symbolic/data_classes/mapping_functions.py:make_indirect_method", "beluga/symbolic/data_classes/mapping_functions.py:Dualize", "beluga/symbolic/data_classes/mapping_functions.py:AlgebraicControlLaw", "beluga/symbolic/data_classes/mapping_functions.py:DifferentialControlLaw", "beluga/symbolic/data_classes/symbolic_problem.py:Problem.inv_map_sol"]}
{"id": "C97", "title": "The hanging chain example gives the hanging chain", "statement": "For the problem of the hanging chain example, the boundary value problem that beluga makes of it has a solution for every two ends that are not one above the other and every length greater than their distance, and every solution of it, mapped back, gives tables of points and directions of the catenary that hangs between the given ends with the given length, the only one of all chains with these ends and this length that lies lowest.", "quantifier": "all solutions, methods, treatments of the control, with and without normalised time, ends, lengths; all competing chains", "why_tests_cant": "the least of all chains is a statement about infinitely many competitors, and a run of the example shows one chain for one length.", "anchors": ["examples/Classic/HangingChain/HangingChain.py", "beluga/symbolic/data_classes/mapping_functions.py:make_indirect_method", "beluga/symbolic/data_classes/mapping_functions.py:Dualize", "beluga/symbolic/data_classes/mapping_functions.py:DifferentialControlLaw", "beluga/symbolic/data_classes/mapping_functions.py:AlgebraicControlLaw", "beluga/numeric/data_classes/NumericProblem.py:NumericProblem"]}
{"id": "C98", "title": "The brachistochrone example gives the fastest descent", "statement": "For the problem of the brachistochrone example, the boundary value problem that beluga makes of it has a solution for every gravity and every target that is lower than the start and to the right of it, and every solution of it, mapped back, reaches its points at times at which no other frictionless descent from rest that does not run backwards can be there already.", "quantifier": "all solutions, methods, treatments of the control, with and without normalised time, gravities, targets; all competing descents", "why_tests_cant": "the least time of all descents is a statement about infinitely many competitors; beluga only imposes first-order conditions, which slower curves may satisfy as well.", "anchors": ["examples/Classic/Brachistochrone/Brachistochrone.py", "beluga/symbolic/data_classes/mapping_functions.py:make_indirect_method", "beluga/symbolic/data_classes/mapping_functions.py:Dualize", "beluga/symbolic/data_classes/mapping_functions.py:DifferentialControlLaw", "beluga/numeric/data_classes/NumericProblem.py:NumericProblem"]}
{"id": "C99", "title": "The Zermelo example gives the fastest crossing", "statement": "For the problem of the Zermelo example (a boat crosses a river with a current given by a function of the user and must land near a place), every solution of the boundary value problem that beluga makes of it that always heads for the other bank, mapped back, gives tables of points and headings of a crossing that follows the law of refraction, and no crossing that lands within the allowed distance takes less time, up to the penalty that beluga adds to the cost for the distance; every crossing that follows the law of refraction with the constant that belongs to its landing place is such a solution, and there is one for every constant at which the boat is not reflected. (Solutions that turn back on the way exist as well and are not fastest; this is recorded as a finding.)", "quantifier": "all solutions, methods, treatments of the control, with and without normalised time, currents, speeds, widths, landing places, activators; all competing crossings", "why_tests_cant": "the least time of all crossings is a statement about infinitely many competitors, and a run of the example shows one crossing of one river; beluga only imposes first-order conditions.", "anchors": ["examples/Classic/ZermelosProblem/ZermelosProblem.py", "beluga/symbolic/data_classes/mapping_functions.py:UTM", "beluga/symbolic/data_classes/mapping_functions.py:make_indirect_method", "beluga/symbolic/data_classes/mapping_functions.py:Dualize", "beluga/symbolic/data_classes/mapping_functions.py:DifferentialControlLaw", "beluga/numeric/data_classes/NumericProblem.py:NumericProblem"]}
{"id": "C100", "title": "The one-loop circuit example gives the cheapest voltage up to the activator, and one answer", "statement": "For the problem of the one-loop circuit example (reverse the current in a circuit by a bounded voltage), every solution of the boundary value problem that beluga makes of it, one of whose returned voltages lies between the bounds, mapped back, gives tables of a current and a voltage that obey the law of the circuit, reverse the current in unit time and stay strictly between the bounds at all times, and whose stated cost exceeds that of no voltage that keeps the fraction mu of the interval from the bounds by more than the activator divided by 2 mu; two such solutions with the same constants give samples of one and the same curve, however they were obtained; there is such a solution whenever some voltage that keeps away from the bounds reverses the current; and if there is one, then as the activator tends to zero the cost of the solutions exceeds that of any voltage within the bounds by as little as asked for, and the voltages converge in mean square to one that costs the least, if there is one.", "quantifier": "all solutions, methods, treatments of the control, with and without normalised time, bounds, currents, resistances, inductances, weights, activators; all competing measurable voltages", "why_tests_cant": "the least cost of all voltages is a statement about infinitely many competitors, a run of the example shows one voltage for one choice of constants, and that no second answer exists cannot be seen from one.", "anchors": ["examples/ElectricityAndMagnetism/OneLoopCircuit/OneLoopCircuit.py", "beluga/symbolic/data_classes/mapping_functions.py:UTM", "beluga/symbolic/data_classes/mapping_functions.py:make_indirect_method", "beluga/symbolic/data_classes/mapping_functions.py:Dualize", "beluga/symbolic/data_classes/mapping_functions.py:DifferentialControlLaw", "beluga/numeric/data_classes/NumericProblem.py:NumericProblem"]}
{"id": "C101", "title": "The Aly-Chan example gives the cheapest control up to the activator, and one answer", "statement": "For the problem of the Aly-Chan example (a singular control problem whose cost is not convex), every solution of the boundary value problem that beluga makes of it, one of whose returned controls lies between the bounds, mapped back, gives tables of a motion from the given start over the given span of time whose control stays strictly between the bounds at all times, and whose stated cost exceeds that of no motion whose control keeps the fraction mu of the interval from the bounds by more than the span of time times the activator divided by 2 mu; two such solutions with the same constants give samples of one and the same curve, however they were obtained; every motion that satisfies the first-order conditions with its control between the bounds is such a solution; there is one for every start, bound and activator; and as the activator tends to zero their cost exceeds that of any motion with a control within the bounds by as little as asked for, and their places converge uniformly to those of a motion that costs the least, if there is one.", "quantifier": "all solutions, methods, treatments of the control, with and without normalised time, starts, bounds, activators; all competing motions whose velocity has the control as its derivative from the right", "why_tests_cant": "the least cost of all controls is a statement about infinitely many competitors; the cost is not convex and beluga only imposes first-order conditions, so that they single out the best control depends on the span of time (3.1415/2 is just less than pi/2), which no run can show.", "anchors": ["examples/Classic/AlyChan/AlyChan.py", "beluga/symbolic/data_classes/mapping_functions.py:UTM", "beluga/symbolic/data_classes/mapping_functions.py:make_indirect_method", "beluga/symbolic/data_classes/mapping_functions.py:Dualize", "beluga/symbolic/data_classes/mapping_functions.py:DifferentialControlLaw", "beluga/numeric/data_classes/NumericProblem.py:NumericProblem"]}
