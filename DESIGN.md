# Formal model of beluga in Lean 4

## What is here

`lean/Verif/<Topic>/Model.lean`  – transcription of functions of `/repo`, each definition cites file and lines.
`lean/Verif/<Topic>/Spec.lean`   – the vocabulary of the property statements (kept independent of the model's helpers) when it is not trivial.
`lean/Verif/<Topic>/Lemmas.lean` – helper lemmas.
`lean/Verif/<Topic>/Props.lean`  – the property theorems, each with an `example` showing its hypotheses are met.
`lean/Verif/Py.lean`             – Python/numpy primitives used by several topics (exceptions, indexing, `linspace`, ...).

`properties.jsonl` lists the properties, `MANIFEST.json` ties them to theorem names, `seeded/LOG.jsonl` records
the mutation experiments (a realistic bug is put in a scratch copy of the model and the theorems must fail).

## Trusted base

* Lean's kernel, and the axioms `propext`, `Classical.choice`, `Quot.sound` (no other axiom; `#print axioms` is
  run on each theorem of `MANIFEST.json`).  No `sorry`, `native_decide`, `bv_decide`.
* The hand transcription of the Python source.  The code cannot be run here, so each definition cites the lines
  it transcribes and states every simplification.
* Numbers.  Python floats are modelled by exact numbers: an arbitrary linearly ordered field `K` where only field
  operations and comparisons occur, `ℝ` where transcendental functions occur.  Rounding and overflow are outside
  the model.  `NaN` is modelled explicitly where the code's behaviour depends on it (control selection, the Armijo loop).
* numpy, scipy and sympy primitives are transcribed for the arguments the code uses (`linspace`, `argmin`,
  `insert`, `delete`, `searchsorted`, slicing, `interp1d` …).  Numerical solvers (`solve_bvp`, `solve_ivp`,
  `fsolve`, `minimize`, `root`) are parameters: theorems hold for every behaviour of the parameter, or state
  their assumption on it as a hypothesis.
* sympy expressions are modelled by an own expression type with evaluation, substitution and differentiation;
  sympy's simplification is not modelled (statements are about values, not about printed forms).
* `Matrix.LUsolve` is a parameter of the symbolic pipeline (`Sympy`), assumed to return a solution of the linear system
  wherever the determinant and the result's denominators do not vanish (`LuSound`).  `Symbolic/Cramer.lean` proves that
  Cramer's rule meets the assumption, so it is not vacuous.
* C92 assumes that sympy's `solve`, `LUsolve` and `integrate` do the same up to names (`Alike`); sympy sorts symbols by name, so this holds
  up to the order of solutions.
* `sympy.solve` is a parameter too.  C64 assumes that its solutions solve the equations (`SolveSound`), C71 that it returns the
  stationary point in question (`SolveFinds`, at the points of the curve only; `C71_violated_solve` shows what happens otherwise).
* `np.linalg.solve`/`lstsq` are assumed in `C88` to solve linear equations that have a solution (`LinSound`), and the integrator to
  have linear flows for linear equations (`LinearIvp`; proved for exact integration and for Euler's method).  `C90` assumes `LinSound`
  and that the end states of the integrator are continuously differentiable near the solution; `C90_smooth_partial` and
  `C91_smooth_partial` prove this for an exact integrator (`ExactOde`; `odeIvp` is one) whose right hand side is.
* `C89` assumes of the solver that it converges from a solution for neighbouring constants (`Tracks`), and does not raise.
* `C91_plan` assumes this only near solutions (`TracksNear`); `C91_shooting_partial` proves it of the shooting solver, from the assumptions of `C90`
  along a compact set of constants (`RegularOn`).
* `C53` also assumes that `LUsolve` introduces no new symbols (`LuFree`, proved for Cramer's rule) and that the integral of
  a constant is the constant times the variable up to form (`IntegrateConst`; an instance is given in `Symbolic/Props7`).
  `C53_field_partial` and `C53_symmetry_partial` assume instead that it solves the standard form exactly (`LuStandard`) and that the
  integral of an expression without the variable is the expression times the variable (`IntegrateFactor`; an instance is given in
  `Symbolic/Fields`).
* `C78` assumes that solutions of equations contain only symbols of the equations and none of the unknowns, and that the solution of a
  linear system has one entry per row (`Tidy`; an instance is given in `Scope/Props`).
* `C80` and `C77` assume of `scipy.integrate.solve_bvp` what its documentation promises (`Colloc.Ok`): the shape of the answer, a mesh
  with the ends of the guess, boundary residuals up to the tolerance on success; an instance is given in `EndToEnd/CollocRun`.
* Python exceptions are values (`Except PyErr`).  Loops without a static bound take fuel; statements quantify
  over every amount of fuel.
* Not modelled: numba/JIT compilation, `pickle` byte format, log output text other than what is named, plotting
  (`visualization`), `optimlib` legacy GUI helpers, process pools (only the argument lists sent to them).

## Plan per property

(C-numbers refer to `properties.jsonl`.)

| property | model | how proved |
|---|---|---|
| C01–C05 | `Continuation`: strategies as state machines, `next`, `add_gamma` | induction over the history of solver answers |
| C06–C11 | `Continuation`: `bisectionNext` | invariant over all histories; explicit witnesses for the negative parts |
| C12, C13 | `Continuation`: product and sparse schedules | list induction over dimensions |
| C14–C16 | `Continuation`: `reset`, `run_continuation_set`, `add_step` | refinement to a fold; witness for stale schedules |
| C17, C18 | `Scaling`: factor application, dimensioned expressions | algebra; induction on expressions |
| C19–C22 | `Mappers`: each mapper on lists of rows | list algebra; `Real.sin`/`arcsin` for EpsTrig |
| C23 | `Trig`: UTM term over ℝ | real analysis |
| C24, C25, C26 | `Symbolic`: problems as records of expression lists | invariants over the pipeline, semantics by evaluation |
| C27–C32 | `Symbolic`, `Geometry`: Dualize, control laws, NormalizeTime, symplectic form | `HasDerivAt` of the expression semantics; counting |
| C33, C34 | `Builder`: declarations with the shared name table | invariant over call sequences |
| C35 | `Functor`: functor objects as trees | structural induction |
| C36 | `Control`: selection loop with NaN | list induction |
| C37 | `FinDiff`: Fornberg recursion | Lagrange basis polynomials |
| C38 | `Spline` | algebra and calculus on segments |
| C39–C41, C58 | `Traj` | list induction |
| C42–C45 | `Shooting` | loop invariants |
| C46, C47, C59, C60 | `Bvp`: `SPBVP.solve` with a heap of trajectories; setters | list algebra, `HasDerivAt`, invariant over call sequences |
| C48, C49, C61 | `Guess`: guess generators through the mapper chain of C17 | list algebra |
| C50, C51 | `Solve`: `solve` with its callees as parameters; result files with failure points | case analysis |
| C62 | `UserFun`: names and registered functions over sequences of calls and differentiations; strings as lists of characters | unique readability of the generated names, invariant over sessions |
| C63 | `Homog`: the symbolic pipeline together with the table of declared units | typing rules of `Scaling` preserved by differentiation, substitution, linear solution and every functor |
| C64 | `Extremal` (`Extremal/Still*` without the momentum shift, `Extremal/Fixed*` and `Extremal/Parameter*` with parameters, `Extremal/Quads`): the first-order conditions for a problem given by functions; the whole pipeline of `Symbolic` from the user's problem to the boundary value problem | composition of C24–C32 and C52 along the pipeline, change of time, `HasDerivAt` |
| C65 | `Symbolic/OneSided`, `Symbolic/OneSidedTrig`, `EndToEnd/Ignored` | simulation: every functor, compiled function and mapper commutes with dropping one-sided constraints; order of the 'epstrig' constraints as an invariant of the functors |
| C66 | `Cost/Model`, `Cost/Props` | induction over the script of declarations, cases of the unit check |
| C67 | `ComplexStep/Model`, `ComplexStep/Props` | Taylor expansion of the analytic extension; big-O bounds in the step |
| C68 | `Reduction/Model`, `Reduction/Props`, `Reduction/Equivalence`, `Reduction/Repeat` | substitution lemma; the removed pair is restored from the quadrature and the parameter, both directions; repeated reduction by induction: the other cyclic pairs stay cyclic in the reduced problem |
| C69 | `Logging/Model`, `Logging/Props` | levels of logger and handlers as numbers; membership of a target in the list of receivers |
| C70 | `Logging/Model`, `Logging/Props` | case distinction over the options |
| C71 | `Extremal/Lift`, `Extremal/Back`, `Extremal/Converse` | the curve that carries an extremal; chain rule for the Hamiltonian gives time's costate; kernel of the matrix of second derivatives gives the control rates |
| C72 | `Reported/Model`, `Reported/Props`, `Reported/Quads` | a compiled expression is its value; the problem before dualisation is the stated one (C64) |
| C73 | `EndToEnd/NumSol`, `EndToEnd/Model`, `EndToEnd/Stages`, `EndToEnd/Agree`, `EndToEnd/Back`, `EndToEnd/Dual`, `EndToEnd/Fore`, `EndToEnd/Props` | C64 from compiled functions to returned tables: values of compiled functions are values of expressions, every mapper undoes its functor on tables of values |
| C74 | `Extremal/Spec`, `Extremal/Core`, `Extremal/Pipeline`, `EndToEnd/NumSol`, `EndToEnd/Props` | C73 with a tolerance: the Hamiltonian drifts along the path by at most the stationarity error times the change of the controls, every other condition is inherited with the same error |
| C75 | `Shooting/Accept`, `EndToEnd/Shooting`, `EndToEnd/Scaled`, `EndToEnd/Pass`, `EndToEnd/Run` | C42 gives boundary conditions up to the tolerance, C74 carries them to the user; for the scaled run C63 makes every scaled condition a multiple of the original one |
| C76 | `EndToEnd/Minimum`, `EndToEnd/Pontryagin`, `Symbolic/Rational` | the chosen candidate is least among all candidates along the whole path, a minimum is stationary, so `solve` lists it; the counterexample is checked at rational points by evaluation |
| C77 | `Continuation/Keeps`, `EndToEnd/Top`, `EndToEnd/TopRun`, `EndToEnd/TopScaled`, `EndToEnd/ScaledRun` | induction over the exchanges with the solver: shape of the guess and sources of the data are kept; C15 for the targets, C75 for each call |
| C78 | `Scope/Spec`, `Scope/Front`, `Scope/Forward`, `Scope/Total`, `Scope/Backward`, `Scope/Props`, `Scope/Always` | which symbols occur is followed through every functor; a compiled function whose symbols are all arguments is total; every inverse mapper is total on arrays of the right sizes |
| C79 | `Direct/Model`, `Direct/Same`, `Direct/Props` | every functor of the direct method maps problems that differ only in costs (and path constraints) to such problems; a compiled function whose arguments have the values of a point either gives the stated values or raises |
| C80 | `Bvp/Props`, `EndToEnd/Pass`, `EndToEnd/Top`, `EndToEnd/CollocRun` | C46 says what the stacked boundary conditions are; with scipy's promises the answer has the shape that C74 needs |
| C81 | `Extremal/Defect`, `Extremal/DefectDiffyg`, `Extremal/DefectPipe`, `EndToEnd/Defect`, `EndToEnd/DefectRun` | C74 with a defect: the rate of the Hamiltonian along the curve is the defect times its first derivatives plus the stationarity error times the speed of the controls (mean value theorem); with 'diffyg' and differential control the defect of the costate of time is taken against the rates of the controls |
| C82 | `Extremal/Sufficient`, `EndToEnd/Convex` | Mangasarian: the Hamiltonian lies above its tangent plane, so along any competitor the cost rate is at least minus the rate of costate times distance, which is integrated (one-sided derivatives, the controls may jump); at the ends the same with the multipliers |
| C83 | `Continuation/Configure` | a chain of setter calls is a list; induction from its end |
| C84 | `Traj/Seq`, `Shooting/Stack` | indexing as NumPy does it; the loop protocol of Python as a relation |
| C85 | `EndToEnd/Hard` | the penalties are at least 0 along the returned curve and at most activator / (2 μ) along the competitor (Jordan's inequality for the cosine), so C82 carries over to the cost without penalties |
| C86 | `EndToEnd/Respect`, `EndToEnd/RespectRun` | the cost with penalties is continuous along the returned curve (`EndToEnd/Continuous`), hence bounded; the barriers are not, so the set of times up to which the constraints hold is open and closed |
| C87 | `Symbolic/Args`, `Symbolic/ArgsProps` | the symbols in arguments of tables and user functions as an invariant of the functors; a successful pass keeps them, elimination removes them |
| C88 | `Shooting/Newton`, `Shooting/Linear`, `Shooting/Exact` | the residual as a function of the unknowns for any number of arcs; it keeps lines, forward differences of such functions are exact |
| C89 | `Continuation/Enough` | what is left to do in units of the finest division as a measure; guesses are never farther than the last step |
| C90 | `Shooting/Contract`, `Shooting/Local`, `Shooting/Regular`, `Shooting/Flow`, `Shooting/Ode` | forward differences of a nearly linear function; the residual in coordinates, its derivative from those of flows and boundary conditions; flows near a solution exist and are differentiable, their derivative solves the linearised equations |
| C91 | `Continuation/Near`, `Shooting/Again`, `Shooting/Follow`, `Shooting/Ode` | a guarded solver that fails where nothing is known is never asked there; results read back as guesses; the constants of C90 uniformly on compact sets |
| C92 | `Rename/*` | every functor, compiled function and mapper commutes with an injective renaming; the made-up names are renamed with those they are made of |
| C93 | `EndToEnd/Order` | both orders have the same extremals (sums and sets do not depend on the order, multipliers are permuted), composed with C64 and C71; C72 for the cost |
| C94 | `EndToEnd/Cycloid`, `EndToEnd/Brachistochrone`, `EndToEnd/BrachistochroneBack` | C64 and C73 give the necessary conditions; constant costates, stationarity and the vanishing Hamiltonian make the direction turn at a constant rate; conversely C71 with the costates of a cycloid, and the intermediate value theorem for the target |
| C95 | `EndToEnd/SoftStop`, `EndToEnd/Bryson` | the optimum by completing the square against the optimal control; C86 keeps the returned motion off the wall; C82 with the optimal motion for a slightly nearer wall as competitor bounds the cost |
| C96 | `Extremal/Unique`, `EndToEnd/Unique`, `EndToEnd/BrysonUnique` | two extremals of a convex problem: each costs as little as the other, so the Hamiltonian has no strict gap between them; strict convexity makes the controls equal, Gronwall's inequality the states |
| C97 | `EndToEnd/Catenary`, `EndToEnd/Chain`, `EndToEnd/ChainBack` | C64 and C73 give the necessary conditions; constant and linear costates fix the direction up to a sign; comparing with another chain, the integral of the heights plus the costates times the differences is monotone, so the curve is lowest or highest; conversely C71 with these costates, and the intermediate value theorem for `sinh m / m` |
| C98 | `EndToEnd/Fastest`, `EndToEnd/BrachistochroneFast` | C94, and for any other descent the time of the cycloid to the same distance plus the difference of the speeds times the cosine of its angle grows at most at rate one |
| C99 | `EndToEnd/Current`, `EndToEnd/Zermelo`, `EndToEnd/ZermeloBack`, `EndToEnd/Ferry`, `EndToEnd/FerryTurn` | C64, the Hamiltonian is constant and zero at the end, so the costates point along the heading and have the inverse of the speed over ground as their size; for any other crossing the travel time as a function of the place grows at most at rate one; the penalty for the landing place is convex and the constant costate is its slope; crossings exist as inverse functions of travel times |
| C100 | `EndToEnd/Circuit`, `EndToEnd/CircuitFlow`, `EndToEnd/CircuitBack`, `EndToEnd/CircuitLimit` | C86 keeps the voltage between the bounds from one that is; the penalty of utm is convex there, so C85 bounds the cost and C96 gives uniqueness; solutions exist because the voltage is a Lipschitz function of the costate and the end current a continuous function of the costate at the start; for the limit a competitor is mixed with one that has room, and the cost of the mean of two voltages is less than the mean of the costs by their distance |
| C101 | `EndToEnd/AlyChan`, `EndToEnd/AlyBack`, `EndToEnd/AlyFlow`, `EndToEnd/AlyLimit` | C86 keeps the control between the bounds; the cost is not convex, but completing the square with tan(T - t), which solves the Riccati equation up to T < pi/2, bounds the cost and shows that two extremals agree; solutions exist by finitely many contractions in which the feedback of the costate on the control is increased from nothing to all of it, in steps of one size since the second variation is positive; for the limit the control of a competitor is weakened slightly, and the same square bounds the distance from the cheapest motion |
| C52 | `Symbolic`: `recursive_sub` | rank argument |

## Findings

Where the unchanged code violates a listed property the negation is proved with a concrete witness, and the part
that does hold is proved under a name ending in `_partial`.

- **C02** (`C02_violated_one_case`): a manual step with the default `num_cases = 1` solves only the problem with the
  *starting* constants; the targets are never reached and the step ends normally.
- **C05** (`C05_violated_far`): un-converged solutions get the distance `9e99`; if the converged ones are at least that
  far away the guess is copied from the un-converged starting point.
- **C09** (`C09_violated`): bisection subdivides `max_divisions + 1` times in a row before raising, not
  `max_divisions`.
- **C10** (`C10_violated`): the division counter is reset by every success, so a solver that converges everywhere
  except at the target makes bisection run for ever (in exact arithmetic).
- **C14** (`C14_violated_bisection`, `C14_violated_product`): a bisection step keeps the cases added in its first run;
  a productspace (and sparse_product) step keeps its old schedule, so a second run replays the first run's constants
  whatever it is started from.
- **C15** (`C15_exception_escapes`): an exception in one step discards the solutions of all steps.
- **C19** (`C19_diffyg_violated`, `C19_diffyg_crash`): `DifferentialControlMapperDiffyG` inserts the costate of the
  control before the *last* costate but deletes at the control's index, so with one control the last costate of the
  user's trajectory comes back as zero; with two or more controls and time points the forward map raises `ValueError`.
  `DualizeMapper.inv_map` also drops the constraint parameters the user supplied (`C19_dualize`).
- **C21** (`C21_violated`): `NormalizeTimeMapper` alone returns `t - t0`; it is an inverse exactly when `t0 = 0`.  In
  the full chain this is hidden, because `MomentumShiftMapper` overwrites the time (`C20_indirect`).
- **C22** (`C22_violated`): the forward map of `EpsTrigMapper` divides by the whole range, the inverse multiplies by
  half of it: a feasible control guess comes back half way between itself and the middle of the interval.
- **C24** (`C24_violated`): a two-sided boundary constraint with `method='epstrig'` gets an `EpsTrig` functor, which
  only looks at path constraints, so the pipeline raises `RuntimeWarning`.  (Also outside the theorem: a second
  'epstrig' bound on the same control raises, because the first one has renamed the control.)
- **C25** (`C25_violated_activator`): `ConstraintStruct.subs_self` substitutes in the expression and in the bounds, not in the
  activator.  A quantity used as activator of an `epstrig` bound therefore comes back with the regularisation, as a symbol of
  the cost that nothing defines (with `utm` it is a `TypeError`, since the activator must be a constant).
- **C26** (`C26_violated`, `C26_violated_leak`, `C26_violated_unconditional`): the sigmoids of the conditions of one function
  are *added*, so a function with `k` satisfied conditions enters the limit `k` times, a function with only some of its
  conditions satisfied enters as well, and one without conditions (an empty list, or fewer lists of conditions than functions)
  never does.
- **C28** (`C28_violated`): `conditions + user quadratures + user constraint parameters = unknowns` when time is
  normalised, and one condition more when it is not: quadratures and constraint parameters declared by the user get no
  condition, and `normalize_time=False` leaves a free-final-time condition without an unknown.
- **C29** (`C29_violated`): with `momentum_shift=False` and an explicit independent variable the differential control
  law does not keep `dH/du = 0`; the term `∂²H/∂u∂t` is missing from its right-hand side.
- **C30** (`C30_violated`): in the symplectic method with `k` dynamic parameters the `i`-th costate gets the rate that belongs
  to the variable `k` places further on (`chi_h[-len(states):]`), and costates of parameters get rate zero.
- **C31** (`C31_violated`): `is_symplectic` does not test for degeneracy; the zero form of any even size is accepted.
- **C53** (`C53_violated`): `MomentumShift` registers translation in time as a symmetry when the *state equations* do not
  contain the time; if the path cost does, the registered "constant of motion" changes at the rate `-∂L/∂t`.
- **C32** (`C32_violated`): `NormalizeTime` multiplies state and costate rates (and the path cost) by the duration but
  not those of quadratures and of the costates of parameters.
- **C36** (`C36_violated`): if the Hamiltonian of the *first* control option is `NaN` that option is returned, because
  `h < NaN` is false; `NaN` in a later option is passed over.
- **C56** (`C56_violated`): compiled functions have no argument for the independent variable.  With
  `momentum_shift=False`, equations that contain it compile but every call raises `NameError`.
- **C57** (`C57_violated`, `C57_crash`): with an algebraic control law the "analytical" Jacobian inserts the control into
  `∂f/∂y` but omits `∂f/∂u · ∂u/∂y`; boundary Jacobians have no control argument.  Without parameters, or without initial
  conditions, compiling the Jacobians raises `TypeError`.
- **C17** (`C17_zero`): a unit sized by a quantity that is zero throughout the guess has size zero; scaling then turns the
  values of that unit into `NaN`/`inf`, and unscaling does not bring them back.
- **C33** (`C33_violated`, `C33_violated_scale`, `C33_violated_constant`): `constraint_parameter` does not check for used
  names; `scale(**kwargs)` with a clash keeps the units before it; a constant with an invalid value raises but its name stays
  occupied.  (The name of a replaced independent variable also stays occupied.)
- **C34** (`C34_violated`): `LocalCompiler.__deepcopy__` returns the compiler itself, so names registered while solving
  (`hamiltonian`, `_lam_x`, ...) are refused in later declarations on the user's own problem.
- **C38** (`C38_violated`): the generated lookup uses `searchsorted(side='right')`, so evaluating a `TableSpline1D` at its last
  abscissa (or above) indexes one past the end: `IndexError`, or an unchecked read when compiled with numba.  Below the first
  abscissa the index is `-1`, so the coefficients of the *last* segment are used without a message: just below the first
  abscissa the value is minus the number of (equal) segments times the last tabulated value (`C38_violated_left`).
- `Propagator(quick_reconstruct=True)` calls `quadfun(time, y, ...)`, whereas compiled quadrature functions (and
  `reconstruct`) take `(y, ...)`; with quadratures it raises `TypeError`.  `integrate_quads` over a span `a = b` uses a grid with
  one, two or no points (examples after `C41_integral`).
- `gen_csd` passes the arguments of a function of several variables as one tuple, so complex-step derivatives only work for
  one variable; `gen_fin_diff` broadcasts a short `order` over all arguments (example in `FinDiff/Props`).
- One-sided path constraints with a penalty method are dropped without a message by the pipeline (see C24's scope).
- **C42** (`C42_violated`, `C42_fsolve_violated`, `C42_root_raises`, `C42_truncated`): `Shooting.solve` decides convergence
  differently for each algorithm.  The `scipy.optimize.minimize` algorithms compare the *squared* residual norm with the
  tolerance and accept scipy's own success flag, so `converged` may be set although the boundary conditions are missed.
  `fsolve` sets the flag from the residual at the *guess*.  `root` algorithms compare an array with a number and raise
  `ValueError` unless there is exactly one residual.  A failed `solve_ivp` goes unnoticed: the returned trajectory then stops
  short of the end of its arc, and the boundary conditions are tested there.
- **C43** (`C43_violated`): the Armijo loop performs `max_iterations + 1` updates.
- **C45** (`C45_violated`): with a parallel pool the equations receive one argument more than in the serial case
  (a `TypeError` for every compiled right-hand side).
- `Shooting`: a guess with quadratures but no quadrature function makes the unknowns shift against the arcs; the message
  printed when the error equals the tolerance says neither "converged" nor "failed"; the controls of the guess are not in the
  returned trajectory.
- **C47** (`C47_violated`, `C47_dimension_violated`): `SPBVP.solve` replaces the quadrature function of the solver object when
  the guess has no quadratures; a later solve with quadratures on the same object (without setting the function again) gets
  rates without quadratures.  (`run_continuation_set` sets all functions first.)  The sensitivity function of `Shooting` keeps
  the number of states of the first guess.
- **C59** (`C59_raises`, `C59_violated`, `C59_bc_raises`, `C59_bc_violated`): with quadratures, `SPBVP` copies an
  `n x n` Jacobian into an `(n+q) x (n+q)` array: `ValueError` for two or more states, and for one state NumPy repeats the entry
  everywhere.  The compiled boundary Jacobian then is a 5-tuple, unpacked as a 3-tuple.  Without parameters the boundary
  Jacobian still has three entries where scipy expects two.
- **C60** (`C60_violated`): `SPBVP` leaves the control rows of the guess in the trajectory it returns.  If scipy refined the
  mesh, calling the trajectory raises `ValueError`.  (`beluga.solve` recomputes the controls of what it returns.)
- **C49** (`C49_param_guess_ignored`, `C49_violated_parameters`, `C49_violated_float_control`, `C49_violated_constructor`):
  `param_guess` and `use_control_guess` are stored and never read; for a problem with parameters the
  modes 'auto' and 'ones' raise `IndexError`, because the new trajectory has no parameters.  A `float` control
  guess, the default, gives a guess without control rows.  `GuessGenerator(...)` discards its arguments (the function
  `guess_generator` sets the object up afterwards).
- **C61** (`C61_violated`): the mappers change the trajectory they are given, and mode 'static' gives them the user's own
  trajectory.  A second `solve` with the same generator starts from a guess that is two columns too wide.
- **C50** (`C50_violated_case`, `C50_violated_default`, `C50_save_failure`, `C50_pool`): `method='Direct'` is refused although
  all other names ignore case.  `save_sols` defaults to `True`, the documentation says `False`.  If the result file cannot
  be written, the exception replaces the computed solutions.  After any failure the process pool stays open.
- **C51** (`C51_violated`): `save` truncates the file before pickling; an object that cannot be pickled or a full disk
  destroys the previous results.
- **C62** (`C62_violated_method`, `C62_violated_repeat`, `C62_violated_swap`, `C62_violated_composite`): `fdiff` does not pass
  the differentiation method on, so `num_deriv_type` has no effect (and `FunctionStruct` offers no way to set it).
  Derivatives are registered under a name made of the printed arguments, not their positions: in `f(a, a)`, or with `f(a, b)` and
  `f(b, a)` in one problem, two different partial derivatives share a name and the later registration wins.  For
  an argument that is not a plain symbol, such as `table(h - h0)`, the name is not an identifier.
- Substituting into the arguments of a user function or table makes sympy call `self.func(*args)`, whose constructor takes other
  arguments, so it raises `TypeError`; quantities, switches and constraints replaced by `subs` must not occur there.
- **C63** (`C63_violated`): `NormalizeTime` multiplies only the rates of the states by the duration and divides only the unit
  of time out of them.  Quadratures and coparameter rates keep the old time, so their declared units are wrong afterwards.
- **C18** (`C18_violated_tables`): tables and user functions are evaluated at scaled arguments and return unscaled
  values: the units declared for them are stored and never read.  Autoscaling changes a problem with a
  table whose argument or value has a unit, unless the function commutes with the scaling (`C18_tables`).
- **C64**: excluded, because the statement fails or is not covered there: problems with parameters at the ends (`C64_violated_parameters`: with
  default options the generated conditions for a parameter are not the stationarity of the cost, since `NormalizeTime` leaves the
  rates of the coparameters in the old time; for `min ∫ u² + p² dt − 4 p` over the duration 2 the solver is satisfied with `p = 2` while
  `p = 1` is cheaper; `C64_parameters_partial`: without `NormalizeTime`, or if the ends do not depend on the parameters, the conditions are right for the method
  'traditional'), quadratures in boundary costs or conditions (`C64_violated_quads`: `Dualize` makes no costates for quadratures, so such costs and
  conditions act on nothing; for `min ∫ u² dt − q(1)` with `x' = u`, `q' = x` all solutions of the generated problem have `u = 0`), one-sided constraints (C65), names that collide with generated ones (`_lam_x`, `_nu_0_0`, `_delta_t`, `_tau`, `_u_trig`); and
  explicit time with `do_momentum_shift=False`.  For problems without explicit time that option may be switched off, except for 'diffyg' with
  differential control (`C64_violated_unshifted`): `DifferentialControlLaw` then takes the last state for the time, the control
  rate is multiplied by the rate of that state, and solutions need not be extremals.  With 'diffyg' and differential control the rate of the costate of time is not that of the adjoint equation but
  differs by `Σ ∂H/∂u · u'`; the boundary conditions make `∂H/∂u` vanish, so solutions are extremals all the same.
- **C65** (`C65_violated`, `C65_violated_direct`, `C65_violated_compiled`, `C65_violated_returned`): `make_indirect_method` and `UTM` look only
  at constraints with both bounds.  A path constraint with one bound is dropped without a message; an initial or terminal constraint
  with one bound becomes the equation `expr = 0`.  So "x at least 1" at the end is solved as `x = 0`: whenever zero is outside the bound, every
  solution violates what the user asked for (`C65_violated_end`; in its example the solver ends at `x = 1` with `u = 1` although
  "x at least 2" and "u at most 1/2" were stated).  `C64_onesided_partial`, `C71_onesided_partial`, `C72_onesided_partial`, `C73_onesided_partial`
  say exactly which problem is solved instead.  `EpsTrig` does not look at the bounds when it chooses a constraint: a one-sided bound
  with 'epstrig' listed before a two-sided one makes both methods raise (`C65_violated_order`), listed after it, it is dropped.
- **C66** (`C66_violated`, `C66_violated_retry`, `C66_violated_set_cost`, `C66_violated_no_cost`): `CostStruct` has one `units` field for
  the initial and the terminal cost, so the later declaration overwrites the earlier one and different units pass the check
  (components_structures.py:181-198).  On a mismatch with the path cost the check first overwrites `path_units` and then raises, so
  a second `sympify_self` of the same object is silent (`solve` works on a copy, so this concerns direct use only).  `set_cost`
  (symbolic_problem.py:201-204) stores `None` for omitted parts, and a problem without any cost has no units; both fail later, in
  `Dualize`, with a TypeError or AttributeError.
- **C37**, **C62**, **C67** (`C37_violated_jit`, `C62_violated_jit`, `C67_violated_fallback`, `C67_violated_args`): wherever numba fails to
  compile, or a complex-step derivative falls back to finite differences, the code calls `logging.beluga`, which does not exist
  (finite_diff.py:34,77,93; complex_step.py:13,18,47,70,98), and an `AttributeError` ends the session.  numba cannot compile
  the derivatives that are written for functions of several arguments (they make a tuple of an array), so no problem with a user
  function of two or more arguments can be dualised.  `C62_violated_repeat` and `C62_violated_swap` describe what would happen
  otherwise.
- **C67** (`C67_violated_index`): the check of the order vector accepts one entry too many; for a function of one argument the
  order `[0, 1]` silently gives the derivative with respect to argument 0.  (The method is never selected by `fdiff`, see C62.)
- **C68** (`C68_violated_algebraic`, `C68_violated_rate`, `C68_violated_user`): `MishchenkoFomenko` reads `law.keys()`, but the control law is a list of
  tuples: with the algebraic control method `reduction=True` raises `AttributeError` as soon as there is a law.  The rates of
  quadratures, the costs, the Hamiltonian and the coparameters are not substituted; for a symmetry that moves two states the new
  quadrature's rate contains the removed state, which the compiled function cannot evaluate.  The reductions use the constants of
  motion from index 1 on, because index 0 should be the Hamiltonian; but `Dualize` appends the Hamiltonian behind the user's
  constants of motion, so that with one of these the Hamiltonian is reduced and the user's first one is not.
- **C69** (`C69_violated`, `C69_violated_import`, `C69_violated_fit`): `init_logging` sets the level of the logger to
  `min(display_level, file_level)`.  With `file_level=NOTSET`, the default at import, that is 0, which Python reads as "ask the root
  logger"; its default is WARNING, so informative messages are not shown although the display level is INFO.  `fit_string` cuts
  with a negative index for widths below three.
- **C70** (`C70_violated`): `main` calls `beluga.setup_beluga` (__main__.py:158), which does not exist; every accepted command line ends in
  an `AttributeError`, and no statement after loading the scenario solves it.
- **C71** (`C71_violated_solve`): if `sympy.solve` returns no solution of the stationarity conditions, `AlgebraicControlLaw` stores an
  empty control law without a message, and the generated boundary value problem has no solution at all.
- **C72** (`C72_violated`): `Dualize` compiles the cost of the problem after `UTM` and `EpsTrig` have added their penalties, and reports that
  as `sol.cost`.  A trajectory that meets all constraints strictly is reported with `eps` times the barrier on top of its cost;
  with 'epstrig' the term is negative.
- **C76** (`C76_violated`): with the differential control law, the default of `optim_options`, the controls are states whose rates keep
  the Hamiltonian stationary; nothing selects the minimum.  For `min ∫(u²-1)²` the motion with `u = 0`, where the Hamiltonian has its
  maximum, solves the generated boundary value problem, and a solver that is started near it returns it as converged.
- **C78** (`C78_violated`, `C78_violated_parameters` for every problem with parameters): `SquashToBVPMapper` appends the costates of parameters to the quadratures, but its inverse does not remove
  them (trajectory_mappers.py:361-366).  For a problem with parameters `compute_cost` then unpacks a row of costates into the
  quadratures of the stated problem and raises: after the solver has converged, the solution cannot be mapped back.
  (`C78_bounds_violated`): bounds of an 'epstrig' constraint that depend on a switch compile into the boundary value problem, but the
  mapper has kept the bounds from before `RASHS` and raises a `NameError` on mapping back.  (`C78_costs_violated`): so does a cost at
  an end that depends on a control.
- **C79** (`C79_violated_cost`, `C79_violated_constraints`, `C79_violated_controls`, `C79_violated_default`): `make_direct_method` transcribes
  nothing.  The costs are not compiled, so minimising and maximising give the same problem; path constraints with 'utm' only change
  the cost and one-sided ones are ignored; the compiled rates have no argument for the controls, so every problem whose rates use one
  ends in a `NameError`; and with the default `analytical_jacobian=True` a problem without parameters raises `TypeError` when it is
  compiled.  What is left, a boundary value problem without controls, is compiled as stated (`C79_partial`).
- **C84** (`C84_violated`): `Trajectory` defines `__getitem__` but no `__iter__`, and `__getitem__` of an empty trajectory returns empty
  arrays for every index, so `for point in Trajectory()` never ends.
- **C84** (`C84_violated_arcs`): `Shooting.solve` stacks the arcs with `np.vstack` (Shooting.py:776-786).  Without quadratures each of them has
  `np.array([])`, and `np.vstack` makes a row without entries of it: the result has an array of shape `(num_arcs, 0)`, whose length is
  `num_arcs` instead of 0.  With two or more arcs, `solution[i]` raises `IndexError` for `num_arcs ≤ i < len(solution)`, and a loop over
  the solution ends after `num_arcs` points.  The next guess and the solver do not notice (`solveFd_trajOf`).
- **C86** (`C86_violated`): the penalty of `UTM` is `1 / cos - 1`, which is defined, periodic and negative beyond the bounds.  A trajectory
  that violates a constraint on the path at all times can solve the generated boundary value problem exactly; it is flagged as
  converged, and the reported cost is lower than that of the trajectory.  Nothing compares the solution with the bounds.
- **C87** (`C87_violated_quantity`, `C87_violated_switch`, `C87_violated_control`): sympy's `subs` makes a function whose argument has
  changed anew with `self.func(*args)`; the classes of tables and user functions need the table, or the name and the function, as well,
  so a table or user function of a quantity, of a switch or of a control bounded by 'epstrig' ends in a `TypeError`.  `Expr.subs`
  substitutes in such arguments; by `C87_sound` the theorems about the generated problem hold whenever the code generates one.  If the
  definition contains the replaced symbol itself, `Symbolic/Args` raises also where sympy would find the argument unchanged.
- **C97** (`C97_violated`): with the default treatment of the control (differential) nothing distinguishes a minimum from a maximum of
  the Hamiltonian.  For all ends and all lengths the boundary value problem of the hanging chain example has, beside the hanging chain,
  the arch with the same ends and the same length as a solution, which is the highest of all chains; which one is found depends on the
  guess.  `C97_returned_partial` says that there are no others.
- **C98** (`C98_violated`): the boundary value problem of the brachistochrone example (examples/Classic/Brachistochrone/Brachistochrone.py)
  does not keep the curve below the start.  For every gravity and all targets of a half line a cycloid with two arches, which comes to rest
  on the way and goes on with negative speed, is a solution as well, with a longer time.  Which arch is found depends on the
  guess and the continuation; nothing in beluga checks it.
- **C99** (`C99_violated`): the boundary value problem of the Zermelo example (examples/Classic/ZermelosProblem/ZermelosProblem.py) does not
  keep the boat on its way.  In a current that grows with the distance from the shore a boat that first goes away from the other bank and
  is turned round by the law of refraction is a solution as well, and heading straight for the other bank costs less.
