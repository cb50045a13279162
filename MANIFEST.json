{
 "claims": [
  {
   "property": "C01",
   "status": "proved",
   "theorems": [
    "Beluga.Cont.C01_manual_schedule",
    "Beluga.Cont.C01_endpoints",
    "Beluga.Cont.C01_manual_run"
   ],
   "note": "linear and log spacing; exact arithmetic (ordered field)"
  },
  {
   "property": "C02",
   "status": "partial",
   "theorems": [
    "Beluga.Cont.C02_target_reached_partial",
    "Beluga.Cont.C02_violated_one_case",
    "Beluga.Cont.C12_endpoints"
   ],
   "note": "false for a manual step with the default single case (violated theorem); proved for manual/bisection with at least two cases and for productspace with at least two subdivisions"
  },
  {
   "property": "C03",
   "status": "proved",
   "theorems": [
    "Beluga.Cont.C03_undeclared_constants"
   ],
   "note": ""
  },
  {
   "property": "C04",
   "status": "proved",
   "theorems": [
    "Beluga.Cont.C04_manual_stops"
   ],
   "note": ""
  },
  {
   "property": "C05",
   "status": "partial",
   "theorems": [
    "Beluga.Cont.C05_nearest_guess_partial",
    "Beluga.Cont.C05_violated_far"
   ],
   "note": "false when converged solutions are at least 9e99 away (violated theorem)"
  },
  {
   "property": "C06",
   "status": "proved",
   "theorems": [
    "Beluga.Cont.C06_bisection_path"
   ],
   "note": ""
  },
  {
   "property": "C07",
   "status": "proved",
   "theorems": [
    "Beluga.Cont.C07_bisection_end"
   ],
   "note": ""
  },
  {
   "property": "C08",
   "status": "proved",
   "theorems": [
    "Beluga.Cont.C08_subdivision",
    "Beluga.Cont.C08_retried"
   ],
   "note": ""
  },
  {
   "property": "C09",
   "status": "partial",
   "theorems": [
    "Beluga.Cont.C09_divisions_bounded_partial",
    "Beluga.Cont.C09_failures_in_a_row",
    "Beluga.Cont.C09_violated"
   ],
   "note": "the exact bound is max_divisions+1, the listed bound max_divisions is violated"
  },
  {
   "property": "C10",
   "status": "partial",
   "theorems": [
    "Beluga.Cont.C10_solves_bounded_partial",
    "Beluga.Cont.C10_violated"
   ],
   "note": "termination is false in exact arithmetic (violated theorem); number of solves bounded by cases plus divisions per failure"
  },
  {
   "property": "C11",
   "status": "proved",
   "theorems": [
    "Beluga.Cont.C11_first_failure"
   ],
   "note": ""
  },
  {
   "property": "C12",
   "status": "proved",
   "theorems": [
    "Beluga.Cont.C12_productspace_grid",
    "Beluga.Cont.C12_endpoints"
   ],
   "note": ""
  },
  {
   "property": "C13",
   "status": "proved",
   "theorems": [
    "Beluga.Cont.C13_sparse_grid",
    "Beluga.Cont.C13_first"
   ],
   "note": ""
  },
  {
   "property": "C14",
   "status": "partial",
   "theorems": [
    "Beluga.Cont.C14_manual_reuse_partial",
    "Beluga.Cont.C14_violated_bisection",
    "Beluga.Cont.C14_violated_product"
   ],
   "note": "holds for manual steps only; violated for bisection and productspace"
  },
  {
   "property": "C15",
   "status": "proved",
   "theorems": [
    "Beluga.Cont.C15_chained",
    "Beluga.Cont.C15_no_steps",
    "Beluga.Cont.C15_exception_escapes",
    "Beluga.Cont.C15_chain_targets"
   ],
   "note": ""
  },
  {
   "property": "C16",
   "status": "proved",
   "theorems": [
    "Beluga.Cont.C16_add_step"
   ],
   "note": ""
  },
  {
   "property": "C35",
   "status": "proved",
   "theorems": [
    "Beluga.Fun.C35_mul",
    "Beluga.Fun.C35_operands_unchanged",
    "Beluga.Fun.C35_assoc",
    "Beluga.Fun.C35_shift",
    "Beluga.Fun.C35_pow",
    "Beluga.Fun.C35_pow_add",
    "Beluga.Fun.C35_repr"
   ],
   "note": "Heap model of the functor objects; all heaps, all functors, all n."
  },
  {
   "property": "C19",
   "status": "partial",
   "theorems": [
    "Beluga.Map.C19_momentumShift",
    "Beluga.Map.C19_differential",
    "Beluga.Map.C19_dualize",
    "Beluga.Map.C19_algebraic",
    "Beluga.Map.C19_squash",
    "Beluga.Map.C19_mf",
    "Beluga.Map.C19_mf_costate",
    "Beluga.Map.C19_diffyg_violated",
    "Beluga.Map.C19_diffyg_crash"
   ],
   "note": "Every mapper except EpsTrig (C22) and NormalizeTime (C21). Violated by the code for DifferentialControlMapperDiffyG: the last costate comes back as zero, and two or more controls raise ValueError; constraint parameters given by the user are lost by DualizeMapper. See Findings."
  },
  {
   "property": "C20",
   "status": "proved",
   "theorems": [
    "Beluga.Map.C20_forward",
    "Beluga.Map.C20_backward",
    "Beluga.Map.C20_chain",
    "Beluga.Map.C20_indirect"
   ],
   "note": "Order of application for all chains; exact recovery of the user's trajectory for the chain of the indirect method with the differential control law."
  },
  {
   "property": "C21",
   "status": "partial",
   "theorems": [
    "Beluga.Map.C21_normalise",
    "Beluga.Map.C21_violated",
    "Beluga.Map.C20_indirect"
   ],
   "note": "Alone the inverse returns t - t0; the original time comes back exactly when t0 = 0 (proved as an equivalence). In the full chain the time is recovered from the time state (C20_indirect)."
  },
  {
   "property": "C22",
   "status": "partial",
   "theorems": [
    "Beluga.Map.C22_bounded",
    "Beluga.Map.C22_onto",
    "Beluga.Map.C22_round_trip_partial",
    "Beluga.Map.C22_violated"
   ],
   "note": "Bounds proved. The round trip is violated: a feasible guess u comes back as (u + middle)/2, proved for all trajectories. See Findings."
  },
  {
   "property": "C23",
   "status": "proved",
   "theorems": [
    "Beluga.Sym.C23_barrier"
   ],
   "note": "Value of the added expression over the reals, for every problem on which the functor succeeds."
  },
  {
   "property": "C24",
   "status": "partial",
   "theorems": [
    "Beluga.Sym.C24_regularised_partial",
    "Beluga.Sym.C24_pipeline_partial",
    "Beluga.Sym.C24_violated"
   ],
   "note": "Every mixture and order of equality, 'utm' and (path, one per control) 'epstrig' constraints. Violated for 'epstrig' on a boundary constraint: the pipeline raises. See Findings."
  },
  {
   "property": "C25",
   "status": "partial",
   "theorems": [
    "Beluga.Sym.C25_eliminated_partial",
    "Beluga.Sym.C25_meaning",
    "Beluga.Sym.C25_refuses",
    "Beluga.Sym.C25_violated_activator"
   ],
   "note": "All acyclic tables in any order, every equation, bound and cost of the problem. Activators are not substituted: a quantity used as activator comes back with the regularisation (violated theorem)."
  },
  {
   "property": "C26",
   "status": "partial",
   "theorems": [
    "Beluga.Sym.C26_eliminated",
    "Beluga.Sym.C26_limit",
    "Beluga.Sym.C26_chooses_partial",
    "Beluga.Sym.C26_selects_partial",
    "Beluga.Sym.C26_violated",
    "Beluga.Sym.C26_violated_leak",
    "Beluga.Sym.C26_violated_unconditional"
   ],
   "note": "Elimination proved, and the limit of every switch (C26_limit). Selection proved for one condition per function; with k conditions the limit is k times the function, a function with some of its conditions enters although it is not active, and a function without conditions is never taken (violated theorems)."
  },
  {
   "property": "C27",
   "status": "proved",
   "theorems": [
    "Beluga.Sym.C27_hamilton",
    "Beluga.Sym.C27_refuses"
   ],
   "note": "All problems without pre-existing costates whose names do not clash with the generated ones; partial derivatives in the sense of calculus."
  },
  {
   "property": "C28",
   "status": "partial",
   "theorems": [
    "Beluga.Sym.C28_count",
    "Beluga.Sym.C28_square_partial",
    "Beluga.Sym.C28_violated"
   ],
   "note": "Exact balance of conditions and unknowns for every pipeline of the indirect method without MishchenkoFomenko, for every sound linear solver. Square exactly for normalised time without user quadratures or constraint parameters; otherwise violated."
  },
  {
   "property": "C29",
   "status": "partial",
   "theorems": [
    "Beluga.Sym.C29_stationary_partial",
    "Beluga.Sym.C29_violated"
   ],
   "note": "dH/du is constant along every curve that follows the equations of the differential control law, if the Hamiltonian does not contain the independent variable (which MomentumShift, on by default, guarantees); violated without MomentumShift."
  },
  {
   "property": "C30",
   "status": "partial",
   "theorems": [
    "Beluga.Sym.C30_dualize_partial",
    "Beluga.Sym.C30_solutions_partial",
    "Beluga.Sym.C30_violated"
   ],
   "note": "Without dynamic parameters: equal rates after Dualize and the same solutions of the boundary value problems. With k parameters the costate rates are shifted by k (violated theorem)."
  },
  {
   "property": "C32",
   "status": "partial",
   "theorems": [
    "Beluga.Sym.C32_states_partial",
    "Beluga.Sym.C32_violated"
   ],
   "note": "States and costates: equivalence with the original equations in original time. Violated for quadratures and costates of parameters, whose rates are not rescaled."
  },
  {
   "property": "C31",
   "status": "partial",
   "theorems": [
    "Beluga.Geo.C31_accepts",
    "Beluga.Geo.C31_standard",
    "Beluga.Geo.C31_violated"
   ],
   "note": "is_symplectic accepts exactly the antisymmetric matrices of even size; the standard form is accepted and nondegenerate. Violated: degenerate forms, e.g. zero, are accepted. See Findings."
  },
  {
   "property": "C52",
   "status": "proved",
   "theorems": [
    "Beluga.Sym.C52_acyclic",
    "Beluga.Sym.C52_fixpoint",
    "Beluga.Sym.C52_value"
   ],
   "note": "All tables and expressions; the value is preserved as well."
  },
  {
   "property": "C53",
   "status": "partial",
   "theorems": [
    "Beluga.Sym.C53_rate_partial",
    "Beluga.Sym.C53_conserved_partial",
    "Beluga.Sym.C53_time_partial",
    "Beluga.Sym.C53_field_partial",
    "Beluga.Sym.C53_symmetry_partial",
    "Beluga.Sym.C53_violated"
   ],
   "note": "All symmetries, with constant components or not (Noether's theorem), and problems without dynamic parameters: the exact rate, zero for a symmetry of the problem. Missing: dynamic parameters, for which the code raises. Violated: MomentumShift registers the time symmetry without looking at the path cost. See Findings."
  },
  {
   "property": "C54",
   "status": "proved",
   "theorems": [
    "Beluga.Sym.C54_time",
    "Beluga.Sym.C54_autonomous"
   ],
   "note": "All problems and all curves."
  },
  {
   "property": "C55",
   "status": "proved",
   "theorems": [
    "Beluga.Geo.C55_one_form",
    "Beluga.Geo.C55_dd_zero",
    "Beluga.Geo.C55_differential",
    "Beluga.Geo.C55_bracket"
   ],
   "note": "All expressions, bases and forms."
  },
  {
   "property": "C17",
   "status": "proved",
   "theorems": [
    "Beluga.Num.C17_round_trip",
    "Beluga.Num.C17_zero"
   ],
   "note": "All trajectories of the problem's shape (also without controls) and all non-zero factors; a zero factor makes the affected values undefined."
  },
  {
   "property": "C18",
   "status": "partial",
   "theorems": [
    "Beluga.Num.C18_expression",
    "Beluga.Num.C18_condition",
    "Beluga.Num.C18_follow_partial",
    "Beluga.Num.C18_control",
    "Beluga.Num.C18_derivative",
    "Beluga.Num.C18_boundary",
    "Beluga.Num.C18_factors",
    "Beluga.Num.C18_magnitude",
    "Beluga.Num.C18_columns",
    "Beluga.Num.C18_tables",
    "Beluga.Num.C18_violated_tables"
   ],
   "note": "Typing rules of dimensional analysis as an inductive relation; over the reals, all positive unit sizes; compiled functions including the choice between control options. With tables or user functions that carry units it holds if and only if the functions are scale invariant; a plain table with units violates it, because it is evaluated at scaled arguments and returns unscaled values."
  },
  {
   "property": "C36",
   "status": "partial",
   "theorems": [
    "Beluga.Num.C36_minimal_partial",
    "Beluga.Num.C36_nan_partial",
    "Beluga.Num.C36_compiled_partial",
    "Beluga.Num.C36_reported_partial",
    "Beluga.Num.C36_violated"
   ],
   "note": "Proved unless the Hamiltonian of the first candidate is NaN; then that candidate is returned (violated theorem)."
  },
  {
   "property": "C56",
   "status": "partial",
   "theorems": [
    "Beluga.Num.C56_derivative",
    "Beluga.Num.C56_control",
    "Beluga.Num.C56_boundary",
    "Beluga.Num.C56_violated"
   ],
   "note": "Proved for equations closed under the arguments. Violated: with momentum_shift=False an equation that contains the independent variable cannot be evaluated (NameError). See Findings."
  },
  {
   "property": "C57",
   "status": "partial",
   "theorems": [
    "Beluga.Num.C57_derivative_partial",
    "Beluga.Num.C57_frozen_partial",
    "Beluga.Num.C57_boundary_partial",
    "Beluga.Num.C57_violated",
    "Beluga.Num.C57_crash"
   ],
   "note": "Proved without a control law. Violated with an algebraic control law (the dependence of the control on the states is ignored; boundary conditions that contain a control raise NameError); crashes without parameters or initial conditions. See Findings."
  },
  {
   "property": "C33",
   "status": "partial",
   "theorems": [
    "Beluga.Build.C33_unique_partial",
    "Beluga.Build.C33_clash",
    "Beluga.Build.C33_violated",
    "Beluga.Build.C33_violated_scale",
    "Beluga.Build.C33_violated_constant"
   ],
   "note": "All sequences of declarations, by an invariant. Violated by constraint_parameter (no check), by scale (not all-or-nothing) and by a failed constant, which keeps its name occupied. See Findings."
  },
  {
   "property": "C34",
   "status": "partial",
   "theorems": [
    "Beluga.Build.C34_components_partial",
    "Beluga.Build.C34_names",
    "Beluga.Build.C34_violated"
   ],
   "note": "Heap model with a shared compiler; all sequences of functor actions. The components are untouched; the name table is not: names registered by the functors are refused afterwards. See Findings."
  },
  {
   "property": "C37",
   "status": "partial",
   "theorems": [
    "Beluga.FinDiff.C37_stencil",
    "Beluga.FinDiff.C37_refuses",
    "Beluga.FinDiff.C37_partial_derivative",
    "Beluga.FinDiff.C37_num_diff_partial",
    "Beluga.FinDiff.C37_violated_jit",
    "Beluga.FinDiff.C37_error",
    "Beluga.FinDiff.C37_forward",
    "Beluga.FinDiff.C37_backward",
    "Beluga.FinDiff.C37_central"
   ],
   "note": "The recursion computes derivatives of Lagrange basis polynomials; every grid of distinct points, order and number of arguments. Also an error bound for smooth functions and which points are evaluated. Exact arithmetic. Provided that numba compiles the function and the derivative. Violated otherwise (for every function of several arguments): AttributeError from logging.beluga."
  },
  {
   "property": "C38",
   "status": "partial",
   "theorems": [
    "Beluga.Spline.C38_smooth_partial",
    "Beluga.Spline.C38_violated",
    "Beluga.Spline.C38_violated_left"
   ],
   "note": "All tables with increasing abscissae: interpolating, twice continuously differentiable and natural, and the derivative functions are derivatives. Violated at and after the last abscissa, where the lookup is out of bounds. np.linalg.solve is assumed to solve nonsingular systems; the spline matrix is proved nonsingular."
  },
  {
   "property": "C39",
   "status": "proved",
   "theorems": [
    "Beluga.Traj.C39_between",
    "Beluga.Traj.C39_stamp",
    "Beluga.Traj.C39_outside",
    "Beluga.Traj.C39_empty"
   ],
   "note": "All trajectories with distinct times in any order, linear interpolation, single query times."
  },
  {
   "property": "C40",
   "status": "proved",
   "theorems": [
    "Beluga.Traj.C40_rows",
    "Beluga.Traj.C40_initial"
   ],
   "note": "All trajectories with distinct times and every quadrature rule (simpson is a parameter)."
  },
  {
   "property": "C41",
   "status": "proved",
   "theorems": [
    "Beluga.Traj.C41_grid",
    "Beluga.Traj.C41_refuses",
    "Beluga.Traj.C41_integral"
   ],
   "note": "All increasing time grids and spans a < b; the degenerate span a = b is shown by examples."
  },
  {
   "property": "C58",
   "status": "proved",
   "theorems": [
    "Beluga.Traj.C58_grid",
    "Beluga.Traj.C58_refuses"
   ],
   "note": "All spans and positive steps, exact arithmetic."
  },
  {
   "property": "C42",
   "status": "partial",
   "theorems": [
    "Beluga.Shoot.C42_armijo_partial",
    "Beluga.Shoot.C42_flag",
    "Beluga.Shoot.C42_minimize_partial",
    "Beluga.Shoot.C42_constrained_partial",
    "Beluga.Shoot.C42_fsolve_violated",
    "Beluga.Shoot.C42_root_raises",
    "Beluga.Shoot.C42_unknown",
    "Beluga.Shoot.C42_violated",
    "Beluga.Shoot.C42_truncated",
    "Beluga.Shoot.C42_accepts"
   ],
   "note": "False as stated (see Findings): proved for the Armijo algorithm and for the minimisers with the tolerance that their code implies; violated-theorems for fsolve, scipy's own flag and a truncated integration; root always raises. C42_accepts: conversely, for one arc and the Armijo algorithm, a trajectory that satisfies the boundary conditions up to the tolerance is returned as converged."
  },
  {
   "property": "C43",
   "status": "partial",
   "theorems": [
    "Beluga.Shoot.C43_bounded_partial",
    "Beluga.Shoot.C43_terminates",
    "Beluga.Shoot.C43_stops",
    "Beluga.Shoot.C43_message",
    "Beluga.Shoot.C43_nan",
    "Beluga.Shoot.C43_violated"
   ],
   "note": "The loop makes at most max_iterations + 1 updates and terminates; the stated bound max_iterations is violated."
  },
  {
   "property": "C44",
   "status": "proved",
   "theorems": [
    "Beluga.Shoot.C44_pack",
    "Beluga.Shoot.C44_unpack",
    "Beluga.Shoot.C44_split",
    "Beluga.Shoot.C44_quads",
    "Beluga.Shoot.C44_result"
   ],
   "note": "For integrations that reach the end of each arc (what happens otherwise is C42_truncated)."
  },
  {
   "property": "C45",
   "status": "partial",
   "theorems": [
    "Beluga.Shoot.C45_violated",
    "Beluga.Shoot.C45_ignored_partial"
   ],
   "note": "Violated: the parallel path passes an extra argument. Equal results hold for equations that ignore it."
  },
  {
   "property": "C46",
   "status": "proved",
   "theorems": [
    "Beluga.Bvp.C46_boundary",
    "Beluga.Bvp.C46_equations",
    "Beluga.Bvp.C46_nodes",
    "Beluga.Bvp.C46_shapes",
    "Beluga.Bvp.C46_roundtrip",
    "Beluga.Bvp.C46_guess_kept"
   ],
   "note": "Given what scipy documents about solve_bvp (BvpSound). Jacobians are C59."
  },
  {
   "property": "C47",
   "status": "partial",
   "theorems": [
    "Beluga.Bvp.C47_shooting",
    "Beluga.Bvp.C47_dimension_violated",
    "Beluga.Bvp.C47_violated",
    "Beluga.Bvp.C47_violated_rates",
    "Beluga.Bvp.C47_collocation_partial"
   ],
   "note": "Proved for the functions of Shooting; violated for the number of states of its sensitivity function and for the quadrature function of SPBVP."
  },
  {
   "property": "C59",
   "status": "partial",
   "theorems": [
    "Beluga.Bvp.C59_partial",
    "Beluga.Bvp.C59_raises",
    "Beluga.Bvp.C59_violated",
    "Beluga.Bvp.C59_bc_raises",
    "Beluga.Bvp.C59_bc_violated"
   ],
   "note": "Proved for the equations of problems without quadratures; violated with quadratures and for boundary Jacobians without parameters."
  },
  {
   "property": "C60",
   "status": "partial",
   "theorems": [
    "Beluga.Bvp.C60_partial",
    "Beluga.Bvp.C60_violated"
   ],
   "note": "Violated if the guess has controls and scipy changes the number of nodes."
  },
  {
   "property": "C48",
   "status": "proved",
   "theorems": [
    "Beluga.Guess.C48_match_constants"
   ],
   "note": "All lists of distinct names and all trajectories with as many columns as names; a state called <x> with a constant <x>_0 or <x>_f."
  },
  {
   "property": "C49",
   "status": "partial",
   "theorems": [
    "Beluga.Guess.C49_rejects",
    "Beluga.Guess.C49_static",
    "Beluga.Guess.C49_ones_partial",
    "Beluga.Guess.C49_auto_partial",
    "Beluga.Guess.C49_layout_partial",
    "Beluga.Guess.C49_param_guess_ignored",
    "Beluga.Guess.C49_violated_parameters",
    "Beluga.Guess.C49_violated_float_control",
    "Beluga.Guess.C49_violated_constructor"
   ],
   "note": "Proved for start, direction, duration, costates and vector control guesses without parameters. Violated for parameters (never used; a problem with parameters raises IndexError), scalar control guesses and constructor arguments. See Findings."
  },
  {
   "property": "C61",
   "status": "partial",
   "theorems": [
    "Beluga.Guess.C61_partial",
    "Beluga.Guess.C61_violated"
   ],
   "note": "Violated for every problem through the indirect method with a static guess: the supplied trajectory is changed in place and the second guess is two columns too wide."
  },
  {
   "property": "C50",
   "status": "partial",
   "theorems": [
    "Beluga.Solve.C50_checks",
    "Beluga.Solve.C50_methods",
    "Beluga.Solve.C50_methods_solve",
    "Beluga.Solve.C50_arrangement",
    "Beluga.Solve.C50_same_shape",
    "Beluga.Solve.C50_file",
    "Beluga.Solve.C50_save_failure",
    "Beluga.Solve.C50_pool",
    "Beluga.Solve.C50_violated_case",
    "Beluga.Solve.C50_violated_default"
   ],
   "note": "The called components are parameters that may fail. Violated: 'Direct' is refused although the other names ignore case, and by default a file is written although the documentation says the default is not to. Also shown: a failed save loses the result, and failures leave the process pool open."
  },
  {
   "property": "C51",
   "status": "partial",
   "theorems": [
    "Beluga.Solve.C51_round_trip",
    "Beluga.Solve.C51_failure_partial",
    "Beluga.Solve.C51_violated"
   ],
   "note": "Given a pickler that reads back what it wrote. The second half is violated: the file is truncated before anything is pickled."
  },
  {
   "property": "C62",
   "status": "partial",
   "theorems": [
    "Beluga.UserFun.C62_partial",
    "Beluga.UserFun.C62_tables",
    "Beluga.UserFun.C62_violated_method",
    "Beluga.UserFun.C62_violated_jit",
    "Beluga.UserFun.C62_violated_repeat",
    "Beluga.UserFun.C62_violated_swap",
    "Beluga.UserFun.C62_violated_composite"
   ],
   "note": "Proved for sessions in which names cannot be confused (Tidy) and central differences. Violated: functions that numba does not differentiate (all of several arguments) raise AttributeError; the chosen method is never used; f(a, a) and f(a, b) with f(b, a) mix up partial derivatives; derivatives of functions of composite arguments cannot be called."
  },
  {
   "property": "C63",
   "status": "partial",
   "theorems": [
    "Beluga.Homog.C63_same",
    "Beluga.Homog.C63_partial",
    "Beluga.Homog.C63_scaling",
    "Beluga.Homog.C63_violated"
   ],
   "note": "All problems and all step sequences of the indirect pipeline, for states, costates, controls and conditions. Violated part: NormalizeTime leaves quadratures and coparameter rates in the old time unit, so a problem with parameters or symmetries is no longer consistent afterwards. Tables and user functions excluded (see C18_violated_tables)."
  },
  {
   "property": "C64",
   "status": "partial",
   "theorems": [
    "Beluga.Opt.C64_extremal_partial",
    "Beluga.Opt.C64_parameters_partial",
    "Beluga.Opt.C64_unshifted_partial",
    "Beluga.Opt.C64_violated_unshifted",
    "Beluga.Opt.C64_violated_parameters",
    "Beluga.Opt.C64_violated_quads",
    "Beluga.E2E.C64_onesided_partial"
   ],
   "note": "All problems without quadratures, with distinct names that beluga does not make up itself; methods 'traditional' and 'diffyg' with the default momentum shift, both control methods, with and without time normalisation; at points where the expressions are differentiable. sympy's solve and LUsolve enter by what they promise. With parameters (C64_parameters_partial): the method 'traditional' with the momentum shift, either without time normalisation or with costs and conditions at the ends that do not depend on the parameters. Without the momentum shift: for problems without explicit time, except for diffyg with differential control, where it fails (C64_violated_unshifted: the last state is taken for the time). Missing: problems with explicit time and without the momentum shift (the start time then has no condition, and the compiled functions raise, C56_violated), quadratures (fail if a boundary cost or condition contains one, C64_violated_quads: they get no costates; in no solution of the generated problem is the control optimal), parameters with diffyg (C30_violated) or at the ends with time normalisation (fails, C64_violated_parameters: a solution with default options that is no extremal, and another parameter gives a lower cost), one-sided constraints themselves (C64_onesided_partial: solutions are the extremals of the problem in which one-sided path constraints are missing and one-sided boundary constraints are equalities, see C65)."
  },
  {
   "property": "C65",
   "status": "partial",
   "theorems": [
    "Beluga.Sym.C24_regularised_partial",
    "Beluga.Sym.C65_violated",
    "Beluga.Sym.C65_violated_direct",
    "Beluga.Sym.C65_violated_order",
    "Beluga.E2E.C65_violated_compiled",
    "Beluga.E2E.C65_violated_returned",
    "Beluga.E2E.C65_violated_end"
   ],
   "note": "Two-sided constraints are all regularised (C24). Violated for every problem with a one-sided constraint: path constraints have no effect, boundary constraints act as equalities; neither the compiled functions nor the returned solution depend on them. At the ends of every solution expr = 0 holds, so a positive lower or negative upper bound is always violated (C65_violated_end). A one-sided bound with epstrig before a two-sided one makes every attempt raise (C65_violated_order)."
  },
  {
   "property": "C66",
   "status": "partial",
   "theorems": [
    "Beluga.CostUnits.C66_consistent_partial",
    "Beluga.CostUnits.C66_path_units",
    "Beluga.CostUnits.C66_kept",
    "Beluga.CostUnits.C66_reported",
    "Beluga.CostUnits.C66_violated",
    "Beluga.CostUnits.C66_violated_retry",
    "Beluga.CostUnits.C66_violated_set_cost",
    "Beluga.CostUnits.C66_violated_no_cost"
   ],
   "note": "Scripts of initial_cost, path_cost and terminal_cost in any order, any units. Violated: different units of initial and terminal cost are not detected; set_cost with an omitted part, and a problem without cost, pass the check and fail in Dualize; a second sympify of the same object accepts what the first refused."
  },
  {
   "property": "C67",
   "status": "partial",
   "theorems": [
    "Beluga.Csd.C67_error",
    "Beluga.Csd.C67_zero",
    "Beluga.Csd.C67_first",
    "Beluga.Csd.C67_second",
    "Beluga.Csd.C67_quadratic",
    "Beluga.Csd.C67_sharp",
    "Beluga.Csd.C67_one_argument_partial",
    "Beluga.Csd.C67_violated_fallback",
    "Beluga.Csd.C67_violated_args",
    "Beluga.Csd.C67_violated_index"
   ],
   "note": "Functions of one argument, first and second derivatives, exact arithmetic. Violated: every derivative of a function of several arguments, and every mixed or higher derivative, raises AttributeError; the bound on the argument index is off by one, so a derivative with respect to an argument that does not exist is answered with another one."
  },
  {
   "property": "C68",
   "status": "partial",
   "theorems": [
    "Beluga.Sym.C68_equivalent_partial",
    "Beluga.Sym.C68_size",
    "Beluga.Sym.C68_conjugate",
    "Beluga.Sym.C68_form",
    "Beluga.Sym.C68_refused",
    "Beluga.Sym.C68_forms",
    "Beluga.Sym.C68_repeated_partial",
    "Beluga.Sym.C68_removed",
    "Beluga.Sym.C68_hamiltonian_kept",
    "Beluga.Sym.C68_violated_algebraic",
    "Beluga.Sym.C68_violated_rate",
    "Beluga.Sym.C68_violated_user"
   ],
   "note": "One step of the reduction for a cyclic coordinate (the constant of motion is its costate) and any number of steps for several such coordinates, the forms of Dualize and of the differential control law, no algebraic control law. Violated: with the algebraic control law the reduction raises AttributeError; for symmetries that move several states the rate of the new quadrature contains the removed state; constants of motion given by the user come before the Hamiltonian, so that the Hamiltonian is reduced and the first of the user's is not."
  },
  {
   "property": "C69",
   "status": "partial",
   "theorems": [
    "Beluga.Log.C69_partial",
    "Beluga.Log.C69_again",
    "Beluga.Log.C69_violated",
    "Beluga.Log.C69_violated_import",
    "Beluga.Log.C69_fit",
    "Beluga.Log.C69_centred",
    "Beluga.Log.C69_violated_fit"
   ],
   "note": "All positive levels and all earlier settings; strings for widths from three. Violated without a file level, as after import: the logger gets level NOTSET, so that the level of Python's root logger (WARNING) decides, and informative messages are lost. fit_string makes strings longer than the width if the width is below three."
  },
  {
   "property": "C70",
   "status": "partial",
   "theorems": [
    "Beluga.Log.C70_violated",
    "Beluga.Log.C70_refused",
    "Beluga.Log.C70_levels"
   ],
   "note": "Which options are refused. Violated for all accepted options: main calls beluga.setup_beluga, which does not exist, and nothing is solved after loading."
  },
  {
   "property": "C71",
   "status": "partial",
   "theorems": [
    "Beluga.Opt.C71_complete_partial",
    "Beluga.Opt.C71_exact_partial",
    "Beluga.Opt.C71_violated_solve",
    "Beluga.E2E.C71_onesided_partial"
   ],
   "note": "The same problems as C64; with diffyg and differential control the curve must also set the costates of the controls to zero. Assumes of sympy that solve returns the stationary point that the extremal uses (algebraic control), or that the second derivatives of the Hamiltonian by the controls are nondegenerate along the extremal (differential control). Violated where solve returns nothing: then no extremal survives. With one-sided constraints (C71_onesided_partial): for the problem in which they are missing or equalities."
  },
  {
   "property": "C72",
   "status": "partial",
   "theorems": [
    "Beluga.Rep.C72_cost_partial",
    "Beluga.Rep.C72_quads_partial",
    "Beluga.Rep.C72_unconstrained",
    "Beluga.Rep.C72_reported",
    "Beluga.Rep.C72_violated",
    "Beluga.E2E.C72_onesided_partial"
   ],
   "note": "The reported number is the stated cost plus the penalties that replace two-sided constraints (C72_violated: a feasible trajectory is reported with more than its cost). Without two-sided constraints the stated cost is reported (C72_unconstrained). For problems with parameters no cost is ever reported (C78_violated_parameters). With quadratures, also in boundary costs: C72_quads_partial. One-sided constraints add nothing (C72_onesided_partial). simpson is any additive rule."
  },
  {
   "property": "C73",
   "status": "partial",
   "theorems": [
    "Beluga.E2E.C73_returned_partial",
    "Beluga.E2E.C73_onesided_partial",
    "Beluga.E2E.C73_reads"
   ],
   "note": "The whole chain: user's problem, generated boundary value problem, compiled functions, arrays, mappers back. For exact solutions of the compiled problem (no numerical error), sampled on any grid. The problems of C64: no parameters, no quadratures; one-sided constraints are missing or equalities in the problem that is solved (C73_onesided_partial); the cost contains the penalties (C72). With the algebraic control law the controls are also least among the candidates (see C76)."
  },
  {
   "property": "C74",
   "status": "partial",
   "theorems": [
    "Beluga.E2E.C74_converged_partial"
   ],
   "note": "C73 with the tolerance of the solver: every boundary condition of the compiled problem is allowed an error up to the tolerance, and the curve of which the returned tables are samples satisfies the stated necessary conditions up to that tolerance. The differential equations are taken to be integrated exactly (C81 is without this); otherwise what is missing from C73."
  },
  {
   "property": "C75",
   "status": "partial",
   "theorems": [
    "Beluga.E2E.C75_shooting_partial",
    "Beluga.E2E.C75_autoscaled_partial"
   ],
   "note": "C74 for runs of the shooting solver with the Armijo algorithm: convergence flag, and a curve through the returned rows that follows the compiled differential equations (C81 is for any curve, with its defect). C75_autoscaled_partial is for both solvers (see C80): with autoscaling the tolerance is multiplied by the largest unit size of the boundary conditions; needs the scale factors to agree with the sizes of the units (C18)."
  },
  {
   "property": "C76",
   "status": "partial",
   "theorems": [
    "Beluga.E2E.C76_minimum_partial",
    "Beluga.E2E.C76_violated"
   ],
   "note": "With the algebraic control law: wherever the Hamiltonian has a minimum over the controls that sympy's solve finds, the returned controls minimise it over all controls. Violated with the differential control law, the default: a solution along which the control maximises the Hamiltonian solves the generated boundary value problem."
  },
  {
   "property": "C77",
   "status": "partial",
   "theorems": [
    "Beluga.E2E.C77_solve_partial",
    "Beluga.E2E.C77_autoscaled_partial"
   ],
   "note": "The whole of solve, with either solver, without autoscaling and (for dimensionally consistent problems whose scale factors stay positive) with it: continuation, solver calls and the mapping back put together. Targets for lists of manual and bisection steps with linear spacing and at least two cases; extremality up to the tolerance for trajectories flagged as converged whose states follow the compiled differential equations. Missing: what is missing from C75 and C02."
  },
  {
   "property": "C78",
   "status": "partial",
   "theorems": [
    "Beluga.Scope.C78_computes",
    "Beluga.Scope.C78_jacobians",
    "Beluga.Scope.C78_delivers_partial",
    "Beluga.Scope.C78_violated",
    "Beluga.Scope.C78_violated_parameters",
    "Beluga.Scope.C78_bounds_violated",
    "Beluga.Scope.C78_costs_violated"
   ],
   "note": "Compiled functions: for all well-scoped problems (algebraic control needs a control law, see C71). Jacobians: differential control with at least one parameter. Mapping back: without parameters; with parameters it raises for every problem, option and trajectory (C78_violated_parameters), as it does for bounds that depend on a switch and costs at the ends that depend on a control. About sympy: solutions contain only symbols of the equations, linear solutions have the right size."
  },
  {
   "property": "C79",
   "status": "partial",
   "theorems": [
    "Beluga.Direct.C79_partial",
    "Beluga.Direct.C79_ends_partial",
    "Beluga.Direct.C79_violated_cost",
    "Beluga.Direct.C79_violated_constraints",
    "Beluga.Direct.C79_violated_controls",
    "Beluga.Direct.C79_violated_default"
   ],
   "note": "Compiled rates and boundary conditions have the stated values wherever they have values at all (no normalised time; two-sided constraints only on the path with 'utm'). Violated: nothing that is compiled depends on the cost or on the path constraints; rates that depend on a control raise NameError at every point; with the default options a problem without parameters does not compile."
  },
  {
   "property": "C80",
   "status": "partial",
   "theorems": [
    "Beluga.E2E.C80_call_partial",
    "Beluga.E2E.C75_autoscaled_partial",
    "Beluga.E2E.C77_solve_partial"
   ],
   "note": "For every call of SPBVP (or Shooting) in a continuation. About solve_bvp: its answer has nodes of the width of the guess, a mesh with the same ends, parameters if and only if some were given, and on success boundary residuals up to the tolerance. A curve through the nodes that follows the compiled differential equations is assumed (C81 is for any curve, with its defect). Missing: what is missing from C74."
  },
  {
   "property": "C81",
   "status": "partial",
   "theorems": [
    "Beluga.E2E.C81_defect_partial",
    "Beluga.E2E.C81_call_partial",
    "Beluga.E2E.C81_autoscaled_partial",
    "Beluga.E2E.C81_solve_partial",
    "Beluga.E2E.C81_solve_autoscaled_partial"
   ],
   "note": "C74, C80, C75 and C77 without the assumption that the differential equations are integrated exactly: for every curve through the returned rows, with its defect; equations with constant right hand sides (the times) are taken to be exact, as they are for every Runge-Kutta or collocation scheme. Both control methods and both indirect methods; with the differential control law of diffyg, whose costate of time takes up the rates of the controls, that costate is compensated by the stationarity error. Missing: that the integrators keep the defect below their tolerance; what is missing from C73."
  },
  {
   "property": "C82",
   "status": "partial",
   "theorems": [
    "Beluga.E2E.C82_minimum_partial",
    "Beluga.E2E.C82_solve_partial",
    "Beluga.E2E.C82_solve_autoscaled_partial"
   ],
   "note": "Mangasarian's sufficiency theorem for the returned curve: exact, and with the errors of the solver and of the integration. The penalties of 'utm' are shown to be convex. Missing: competitors over other times (free end times); controls bounded by 'epstrig', in which the problem is not convex; non-convex problems, for which only C76 is left; what is missing from C73 and C81."
  },
  {
   "property": "C83",
   "status": "proved",
   "theorems": [
    "Beluga.Cont.C83_configured",
    "Beluga.Cont.C83_running",
    "Beluga.Cont.C83_clear"
   ],
   "note": "For all four strategies. num_cases of the product strategies is overwritten by init, so setting it there has no effect."
  },
  {
   "property": "C84",
   "status": "partial",
   "theorems": [
    "Beluga.Traj.C84_item",
    "Beluga.Traj.C84_range",
    "Beluga.Traj.C84_loop",
    "Beluga.Traj.C84_violated",
    "Beluga.Traj.C84_call",
    "Beluga.Shoot.C84_violated_arcs",
    "Beluga.Shoot.stackArcs_rows",
    "Beluga.Shoot.stackArcs_empty"
   ],
   "note": "For all trajectories whose parts are empty or have one row per time. Violated by the empty trajectory: every index is accepted and a loop over it never ends. Violated by the trajectories that the shooting solver returns without quadratures for two or more arcs: their array of quadratures has one row for each arc, so later points raise IndexError and loops end early. Slices and index arrays are not modelled."
  },
  {
   "property": "C85",
   "status": "partial",
   "theorems": [
    "Beluga.E2E.C85_nearly_optimal_partial",
    "Beluga.E2E.C85_solve_partial",
    "Beluga.E2E.C85_solve_autoscaled_partial"
   ],
   "note": "C82 for the stated cost instead of the cost with penalties: the penalty of 'utm' is non-negative between the bounds, proportional to the activator, and at most activator / (2 mu) at the fraction mu of the interval from the bounds. That the returned trajectory lies between the bounds is part of the assumptions (see C82: convex along both trajectories). Missing: what is missing from C82."
  },
  {
   "property": "C86",
   "status": "partial",
   "theorems": [
    "Beluga.E2E.C86_respected_partial",
    "Beluga.E2E.C86_solve_partial",
    "Beluga.E2E.C86_solve_autoscaled_partial",
    "Beluga.E2E.C86_violated"
   ],
   "note": "From C73 and C81: the cost with penalties is continuous along the returned curve, hence bounded, and the barriers are not. That the constraints hold anywhere is not guaranteed: the penalty is periodic, so a trajectory outside of the bounds can be an exact solution, flagged as converged, of a problem that has no admissible trajectory inside (C86_violated). Bounds and activators may change along the trajectory; controls bounded by 'epstrig' stay weakly inside of their bounds. Missing: what is missing from C73 and C81."
  },
  {
   "property": "C87",
   "status": "partial",
   "theorems": [
    "Beluga.Sym.C87_agrees_partial",
    "Beluga.Sym.C87_sound",
    "Beluga.Sym.C87_sound_direct",
    "Beluga.Sym.C87_violated_quantity",
    "Beluga.Sym.C87_violated_switch",
    "Beluga.Sym.C87_violated_control"
   ],
   "note": "A substitution in the argument of a table or user function raises TypeError, because sympy makes the function anew from its argument alone. Without such substitutions the pipeline does what it does with the functions of sympy (C87_agrees_partial), and whatever it returns is what it returns with those, so that the theorems about generated problems apply (C87_sound). Violated as soon as a rate has a table or user function of a quantity, a switch or the first control bounded by 'epstrig'. Missing for the violation: the other bounded controls, and costs and constraints."
  },
  {
   "property": "C88",
   "status": "partial",
   "theorems": [
    "Beluga.Shoot.C88_linear_partial",
    "Beluga.Shoot.C88_exact"
   ],
   "note": "Forward differences of a function that keeps lines are exact, the residual of linear equations keeps lines in the unknowns, so the Newton step ends in a zero and the line search accepts it at once. Any number of arcs, any nonzero step sizes; np.linalg.solve/lstsq are assumed to solve solvable linear equations, the integrator to have linear flows: an exact one has (C88_exact), and so has Euler's method. Not covered: quadratures, the parallel mode (C45), rounding."
  },
  {
   "property": "C89",
   "status": "proved",
   "theorems": [
    "Beluga.Cont.C89_target",
    "Beluga.Cont.C89_plan"
   ],
   "note": "Tracks states what is assumed of the solver, FineEnough how many cases are enough; linear spacing. At most twice as many solves as there are finest cases. Not covered: logarithmic spacing (C03), the productspace strategy."
  },
  {
   "property": "C90",
   "status": "partial",
   "theorems": [
    "Beluga.Shoot.C90_local_partial",
    "Beluga.Shoot.C90_smooth_partial"
   ],
   "note": "Forward differences of a function that is nearly linear are near its derivative; the Newton step with them shortens distance and residual by any given factor, so the line search accepts full steps. Any number of arcs; np.linalg.solve/lstsq are assumed to solve solvable linear equations, the end states of the integrator to be continuously differentiable; C90_smooth_partial proves this for an exact integrator and has hypotheses on the differential equations and boundary conditions only. Not covered: quadratures, the parallel mode (C45), rounding."
  },
  {
   "property": "C91",
   "status": "partial",
   "theorems": [
    "Beluga.Cont.C91_plan",
    "Beluga.Shoot.C91_shooting_partial",
    "Beluga.Shoot.C91_smooth_partial"
   ],
   "note": "C91_plan is for any solver that is known near solutions only (it may raise elsewhere); C91_shooting_partial for the modelled shooting solver, whose results are read back as guesses by interpolation; C91_smooth_partial for an exact integrator, from the differential equations. Not covered: quadratures, the parallel mode, automatic scaling, logarithmic spacing, the productspace strategies, rounding."
  },
  {
   "property": "C92",
   "status": "proved",
   "theorems": [
    "Beluga.Rename.C92_generated",
    "Beluga.Rename.C92_generated_direct",
    "Beluga.Rename.C92_compiled",
    "Beluga.Rename.C92_back",
    "Beluga.Rename.C92_shooting",
    "Beluga.Rename.C92_solver"
   ],
   "note": "Assumed: sympy's solve, LUsolve and integrate do the same up to names (sympy sorts symbols by name, so the order of several solutions may change), and the renaming maps the names made up by beluga (_lam_x, _u_trig, _deltat, _nu_0_i, ...) to those made of the new names."
  },
  {
   "property": "C93",
   "status": "partial",
   "theorems": [
    "Beluga.E2E.C93_solutions_partial",
    "Beluga.E2E.C93_cost_partial"
   ],
   "note": "The problems of C64. Assumed of the curve for the second order: regularity, and that sympy finds the stationary point (algebraic control) or the second derivatives are nondegenerate (differential control); simpson is any additive rule. Missing: parameters, quadratures, one-sided constraints with epstrig (for these the order matters: C65_violated_order)."
  },
  {
   "property": "C94",
   "status": "proved",
   "theorems": [
    "Beluga.E2E.C94_solutions",
    "Beluga.E2E.C94_returned",
    "Beluga.E2E.C94_complete",
    "Beluga.E2E.C94_exists"
   ],
   "note": "Assumed: regularity along the curve (no division by zero), gravity points down, positive duration, the target is not straight below the start, the direction is differentiable, and of sympy what C64 assumes. C94_complete and C94_exists construct a solution with all of these properties, with Cramer's rule for LUsolve and default options; the example runs to the target of the example script."
  },
  {
   "property": "C95",
   "status": "proved",
   "theorems": [
    "Beluga.E2E.C95_optimum",
    "Beluga.E2E.C95_returned"
   ],
   "note": "Assumed: an exact solution of the boundary value problem with positive duration, regularity along the curve (no division by zero), a continuous control, and of sympy what C64 assumes. That the boundary value problem has a solution is not part of the claim and is not shown."
  },
  {
   "property": "C96",
   "status": "partial",
   "theorems": [
    "Beluga.E2E.C96_returned_partial",
    "Beluga.E2E.C96_bryson"
   ],
   "note": "Missing: end times that the problem leaves free; controls bounded by 'epstrig'; problems with parameters or quadratures; approximate solutions (how close two approximate answers are to each other)."
  },
  {
   "property": "C97",
   "status": "partial",
   "theorems": [
    "Beluga.E2E.C97_solutions_partial",
    "Beluga.E2E.C97_returned_partial",
    "Beluga.E2E.C97_complete",
    "Beluga.E2E.C97_exists",
    "Beluga.E2E.C97_violated"
   ],
   "note": "Every solution is a catenary with the right ends and length, and it is the only lowest or the only highest chain of all (proved); it is the lowest with the algebraic control law if sympy finds the opposite direction too. Violated: with the default options the highest chain, an arch, solves the boundary value problem for all ends and lengths as well. Assumed of a solution: regularity, positive length, a continuous direction, ends not one above the other."
  },
  {
   "property": "C98",
   "status": "partial",
   "theorems": [
    "Beluga.E2E.C98_solutions_partial",
    "Beluga.E2E.C98_returned_partial",
    "Beluga.E2E.C98_exists",
    "Beluga.E2E.C98_violated"
   ],
   "note": "Every solution is fastest of all descents that do not run backwards until it returns to the height of the start, and for every target there is one that does not return there (proved). Violated: with the default options curves with more arches, which come to rest on the way, solve the boundary value problem as well and are slower. Assumed of a solution: what C94 assumes."
  },
  {
   "property": "C99",
   "status": "partial",
   "theorems": [
    "Beluga.E2E.C99_solutions_partial",
    "Beluga.E2E.C99_returned_partial",
    "Beluga.E2E.C99_complete",
    "Beluga.E2E.C99_exists",
    "Beluga.E2E.C99_violated"
   ],
   "note": "Assumed of a solution: regularity, positive duration, a differentiable heading towards the other bank, landing within the allowed distance, a boat faster than the current where it goes against it. Missing: solutions that turn back on the way; C99_violated constructs one that is not fastest, so the assumption cannot be left out. C99_complete and C99_exists construct solutions with all of these properties; the example is the current of the example script."
  },
  {
   "property": "C100",
   "status": "proved",
   "theorems": [
    "Beluga.E2E.C100_returned",
    "Beluga.E2E.C100_unique",
    "Beluga.E2E.C100_complete",
    "Beluga.E2E.C100_exists",
    "Beluga.E2E.C100_limit",
    "Beluga.E2E.C100_converges"
   ],
   "note": "Assumed: an exact solution of the boundary value problem, regularity along the curve (no division by zero), a continuous control, one returned voltage between the bounds (the penalty is periodic, see C86), positive weight of the voltage, non-negative weight of the current, positive activator, and of sympy what C64 assumes. C100_exists constructs a solution with all of these properties, with Cramer's rule for LUsolve and default options, whenever the inductance is positive and some voltage with room to the bounds reverses the current; the example has the constants of the script."
  },
  {
   "property": "C101",
   "status": "proved",
   "theorems": [
    "Beluga.E2E.C101_returned",
    "Beluga.E2E.C101_unique",
    "Beluga.E2E.C101_complete",
    "Beluga.E2E.C101_exists",
    "Beluga.E2E.C101_limit",
    "Beluga.E2E.C101_converges"
   ],
   "note": "Assumed: an exact solution of the boundary value problem, regularity along the curve (no division by zero), a continuous control, one returned control between the bounds (the penalty of utm has a pole there), positive activator and bound."
  }
 ]
}
