import Verif.Traj.Model

/-!
# The shooting solver

`Shooting.solve` and its helpers (numeric/bvp_solvers/Shooting.py), `Propagator.__call__`
(numeric/ivp_solvers/ivpsol.py:67-104).

Numbers are exact; `NaN` and `inf` are modelled in the Armijo iteration.  `solve_ivp`, `simpson`, `np.linalg.norm`, the Newton
direction (finite-difference Jacobian and `np.linalg.solve`/`lstsq`) and SciPy's root finders are parameters.  Compiled functions
take a list of positional arguments, so that calls with the wrong number of arguments can be expressed.  The Jacobian with
the state-transition matrix (526-640) is dead code (`_jacobian_function` is never called) and left out.
-/

namespace Beluga.Shoot

open Beluga.Traj (Arr Curve Simpson)

/-- A function called with positional arguments (ivpsol.py:67-104, Shooting.py:381-383). -/
abbrev Fn (K : Type) := List (List K) → Py (List K)

/-- `solve_ivp(rhs, [tspan[0], tspan[-1]], y0, ...)`: times and states (ivpsol.py:67-104). -/
abbrev Ivp (K : Type) := (List K → Py (List K)) → List K → List K → Py (List K × List (List K))

section
variable {K : Type} [Field K] [LinearOrder K]

/-- `a[i]` of an array of one or two dimensions (Shooting.py:379, 460, 532). -/
def row (a : Arr K) (i : Nat) : List K :=
  match a with
  | .vec l => l[i]?.toList
  | .mat _ rows => rows.getD i []

/-- `a[-1]` (Shooting.py:266, 379). -/
def lastRow (a : Arr K) : List K :=
  match a with
  | .vec l => l[l.length - 1]?.toList
  | .mat _ rows => rows.getD (rows.length - 1) []

/-- `a[0] = r` (Shooting.py:532-534, 759-761). -/
def setFirst (a : Arr K) (r : List K) : Arr K :=
  match a with
  | .vec l => .vec (l.set 0 (r.getD 0 0))
  | .mat c rows => .mat c (rows.set 0 r)

/-- `a += d` (Shooting.py:266-267). -/
def addRows (d : List K) (a : Arr K) : Arr K :=
  match a with
  | .vec l => .vec (l.map (· + d.getD 0 0))
  | .mat c rows => .mat c (rows.map fun r => List.zipWith (· + ·) r d)

/-- The last entry of a list of times (Shooting.py:376). -/
def lastT (ts : List K) : K := ts.getD (ts.length - 1) 0

/-- `Propagator.__call__(eom_func, quad_func, tspan, y0, q0, *args)` with a variable step and `quick_reconstruct=False`
(ivpsol.py:67-104). -/
def propagate (ivp : Ivp K) (simp : Simpson K) (eom : Fn K) (quad : Option (Fn K)) (tspan y0 q0 : List K)
    (args : List (List K)) : Py (Curve K) := do
  let r ← ivp (fun y => eom (y :: args)) tspan y0
  let g : Curve K := ⟨r.1, .mat y0.length r.2, .vec [], .vec []⟩
  match quad with
  | none => .ok g
  | some f =>
    if q0.length ≠ 0 then do
      let rows ← Traj.reconstruct simp (fun y => f (y :: args)) g q0
      .ok { g with q := .mat q0.length rows }
    else .ok g

/-- What a solver object and its surroundings provide (BaseAlgorithm.py:14-66, Shooting.py:187-203). -/
structure Env (K : Type) where
  ivp : Ivp K
  simp : Simpson K
  eom : Fn K
  quad : Option (Fn K)
  bc : Fn K
  const : List K
  /-- `pool is not None`. -/
  parallel : Bool

/-- The positional arguments behind `q0`: `_make_gammas` passes `dyn_param, sol.const` (Shooting.py:256-258), `_make_gammas_parallel`
passes `args[3]`, the control, in front of them (Shooting.py:286-288). -/
def extraArgs (E : Env K) (u p : List K) : List (List K) :=
  if E.parallel then [u, p, E.const] else [p, E.const]

/-- The loop that makes the quadratures continuous (Shooting.py:264-267). -/
def shiftQ (last : List K) : List (Curve K) → List (Curve K)
  | [] => []
  | g :: gs =>
    let g' := { g with q := addRows (List.zipWith (· - ·) last (row g.q 0)) g.q }
    g' :: shiftQ (lastRow g'.q) gs

/-- `_make_gammas` and `_make_gammas_parallel` (Shooting.py:240-300). -/
def makeGammas (E : Env K) (gs : List (Curve K)) (p : List K) (nq : Nat) : Py (List (Curve K)) := do
  let starts ← gs.mapM fun g => Traj.call g (g.t.getD 0 0)
  let new ← (gs.zip starts).mapM fun gs =>
    propagate E.ivp E.simp E.eom E.quad gs.1.t gs.2.1 gs.2.2.1 (extraArgs E gs.2.2.2 p)
  match new with
  | g :: h :: rest => .ok (if 0 < nq then g :: shiftQ (lastRow g.q) (h :: rest) else new)
  | _ => .ok new

/-- `_wrap_y0` (Shooting.py:206-230). -/
def wrap (gs : List (Curve K)) (p pn : List K) : Py (List K) :=
  match gs with
  | [] => .error .indexError
  | g :: _ => .ok (gs.flatMap (fun g => row g.y 0) ++ row g.q 0 ++ p ++ pn)

/-- `_unwrap_y0` (Shooting.py:233-238).  `np.reshape` raises `ValueError` if there are too few entries. -/
def unwrap (xx : List K) (nO nQ nP nA : Nat) : Py (List (List K) × List K × List K × List K) :=
  if xx.length < nO * nA then .error .valueError
  else .ok ((List.range nA).map (fun i => (xx.drop (i * nO)).take nO), (xx.drop (nO * nA)).take nQ,
    (xx.drop (nO * nA + nQ)).take nP, xx.drop (nO * nA + nP + nQ))

/-- The differences between the end of each arc and the start of the next (Shooting.py:378-379). -/
def jumps : List (Curve K) → List (List K)
  | g :: h :: rest => List.zipWith (· - ·) (lastRow g.y) (row h.y 0) :: jumps (h :: rest)
  | _ => []

/-- `_bc_func` of `_bc_func_multiple_shooting` (Shooting.py:371-387). -/
def bcMs (bc : Fn K) (gs : List (Curve K)) (p pn k : List K) : Py (List K) :=
  match gs.head?, gs.getLast? with
  | some g, some l => do
    let s0 ← Traj.call g (g.t.getD 0 0)
    let sf ← Traj.call l (lastT l.t)
    let b ← if 0 < s0.2.1.length then bc [s0.1, s0.2.1, sf.1, sf.2.1, p, pn, k] else bc [s0.1, sf.1, p, pn, k]
    .ok ((jumps gs).flatten ++ b)
  | _, _ => .error .indexError

/-- The arcs of the guess (Shooting.py:483-495). -/
def makeArcs (sol : Curve K) (n : Nat) : Py (List (Curve K)) :=
  let tn := linspace (sol.t.getD 0 0) (lastT sol.t) (n + 1)
  (List.range n).mapM fun i => do
    let a ← Traj.call sol (tn.getD i 0)
    let b ← Traj.call sol (tn.getD (i + 1) 0)
    .ok ⟨[tn.getD i 0, tn.getD (i + 1) 0], .mat a.1.length [a.1, b.1], .mat a.2.1.length [a.2.1, b.2.1],
      .mat a.2.2.length [a.2.2, b.2.2]⟩

/-- Writing the unknowns into the arcs (Shooting.py:531-534, 758-761). -/
def setStarts (gs : List (Curve K)) (y : List (List K)) (q : List K) (nQ : Nat) : List (Curve K) :=
  List.zipWith (fun g r => { g with y := setFirst g.y r, q := if 0 < nQ then setFirst g.q q else g.q }) gs y

/-- The sizes of a problem (Shooting.py:459-472). -/
structure Sizes where
  nO : Nat
  nQ : Nat
  nP : Nat
  nA : Nat

/-- The arcs shot from the unknowns `xx` (Shooting.py:528-535, 756-762).  Writing too few quadratures into a row is a `ValueError` (that
NumPy would broadcast a single number is not modelled; the unknowns have the right length anyway). -/
def shoot (E : Env K) (gs : List (Curve K)) (z : Sizes) (xx : List K) : Py (List (Curve K) × List K × List K) := do
  let w ← unwrap xx z.nO z.nQ z.nP z.nA
  if w.2.1.length < z.nQ then .error .valueError
  else do
    let g ← makeGammas E (setStarts gs w.1 w.2.1 z.nQ) w.2.2.1 z.nQ
    .ok (g, w.2.2.1, w.2.2.2)

/-- `_constraint_function` (Shooting.py:528-536). -/
def residual (E : Env K) (gs : List (Curve K)) (z : Sizes) (xx : List K) : Py (List K) := do
  let g ← shoot E gs z xx
  bcMs E.bc g.1 g.2.1 g.2.2 E.const

/-- A float (Shooting.py:703-740). -/
inductive Flt (K : Type) where
  | val (k : K)
  | inf
  | nan
  deriving DecidableEq, Repr

/-- `f < k` (Shooting.py:705, 764). -/
def Flt.lt : Flt K → K → Bool
  | .val x, k => decide (x < k)
  | _, _ => false

/-- `f <= k` (Shooting.py:739). -/
def Flt.le : Flt K → K → Bool
  | .val x, k => decide (x ≤ k)
  | _, _ => false

/-- `f > k` (Shooting.py:729, 771). -/
def Flt.gt : Flt K → K → Bool
  | .val x, k => decide (k < x)
  | .inf, _ => true
  | .nan, _ => false

/-- `f >= k` (Shooting.py:729). -/
def Flt.ge : Flt K → K → Bool
  | .val x, k => decide (k ≤ x)
  | .inf, _ => true
  | .nan, _ => false

/-- `np.linalg.norm` of a vector that may contain `NaN` (`none`) (Shooting.py:711, 732). -/
def normF (norm : List K → K) (v : List (Option K)) : Flt K :=
  if v.any Option.isNone then .nan else .val (norm (v.filterMap id))

/-- The options of the solver (Shooting.py:191-196). -/
structure Opts (K : Type) where
  tol : K
  maxErr : K
  maxIter : Nat

/-- The parameters of the Armijo iteration: the residual, the norm and the Newton direction (as a function of the unknowns and
the residual) (Shooting.py:703-740). -/
structure Armijo (K : Type) where
  F : List K → Py (List (Option K))
  norm : List K → K
  newton : List K → List K → Py (List K)

/-- The line search (Shooting.py:723-733) from `ll` on; `r` is `r_try`, `step` the last step, `n` the number of evaluations so far.  `none`
means that there was not enough fuel. -/
def lineSearch (A : Armijo K) (o : Opts K) (x dy : List K) (err : K) :
    Nat → K → Flt K → List K → Nat → Py (Option (Flt K × List K × Nat))
  | fuel, ll, r, step, n =>
    if r.ge ((1 - 1 / 10000 * ll) * err) && r.gt o.tol && decide (1 / 20 < ll) then
      match fuel with
      | 0 => .ok none
      | fuel + 1 => do
        let step := dy.map (ll * ·)
        let v ← A.F (List.zipWith (· + ·) x step)
        lineSearch A o x dy err fuel (ll * (1 / 2)) (normF A.norm v) step (n + 1)
    else .ok (some (r, step, n))

/-- The state of the Armijo iteration; `evals` are the numbers of evaluations in the line searches (Shooting.py:703-740). -/
structure St (K : Type) where
  x : List K
  err : Flt K
  nIter : Nat
  converged : Bool
  evals : List Nat
  deriving DecidableEq

/-- The condition of the loop (Shooting.py:705). -/
def goOn (o : Opts K) (s : St K) : Bool := !s.converged && decide (s.nIter ≤ o.maxIter) && s.err.lt o.maxErr

/-- One pass of the loop (Shooting.py:706-740).  The step exists because `inf` passes the first test of the line search. -/
def pass (A : Armijo K) (o : Opts K) (fuel : Nat) (s : St K) : Py (Option (St K)) := do
  let v ← A.F s.x
  if v.any Option.isNone then .error .runtimeError
  else do
    let res := v.filterMap id
    let err := A.norm res
    let dy ← A.newton s.x res
    match ← lineSearch A o s.x dy err fuel 1 .inf [] 0 with
    | none => .ok none
    | some (r, step, n) =>
      .ok (some ⟨List.zipWith (· + ·) s.x step, r, s.nIter + 1, r.le o.tol, s.evals ++ [n]⟩)

/-- The Armijo iteration (Shooting.py:703-740). -/
def armijo (A : Armijo K) (o : Opts K) (lsFuel : Nat) : Nat → St K → Py (Option (St K))
  | fuel, s =>
    if goOn o s then
      match fuel with
      | 0 => .ok none
      | fuel + 1 => do
        match ← pass A o lsFuel s with
        | none => .ok none
        | some s' => armijo A o lsFuel fuel s'
    else .ok (some s)

/-- What `scipy.optimize` returns (Shooting.py:675-701). -/
structure Opt (K : Type) where
  x : List K
  success : Bool
  nit : Int

/-- SciPy's solvers: `minimize` also gets the cost function and returns its value `opt.fun`, `root` returns the residual
(Shooting.py:675-701). -/
structure Scipy (K : Type) where
  minimize : String → (List K → Py K) → (List K → Py (List K)) → List K → Py (Opt K × K)
  root : String → (List K → Py (List K)) → List K → Py (Opt K × List K)
  fsolve : (List K → Py (List K)) → List K → Py (List K)

/-- `scipy_minimize_algorithms` (Shooting.py:17-18). -/
def minimizeAlgorithms : List String :=
  ["Nelder-Mead", "Powell", "CG", "BFGS", "Newton-CG", "L-BFGS-B", "TNC", "COBYLA", "SLSQP", "trust-constr", "dogleg",
    "trust-ncg", "trust-exact", "trust-krylov"]

/-- The algorithms of `minimize` that get the residual as a constraint only (Shooting.py:676). -/
def constrainedAlgorithms : List String := ["COBYLA", "SLSQP", "trust-constr"]

/-- `scipy_root_algorithms` (Shooting.py:19-20). -/
def rootAlgorithms : List String :=
  ["hybr", "lm", "broyden1", "broyden2", "anderson", "linearmixing", "diagbroyden", "excitingmixing", "krylov", "df-sane"]

/-- `isclose(err, 0, abs_tol=tol)` (Shooting.py:686, 701). -/
def isclose0 (err tol : K) : Bool := decide (|err| ≤ max (1 / 10 ^ 9 * |err|) tol)

/-- `err` is a number, or an array after `root` (Shooting.py:683, 691, 698, 736). -/
inductive Err (K : Type) where
  | num (e : Flt K)
  | arr (l : List K)

/-- What the root-solving process leaves (Shooting.py:675-749): unknowns, error, iterations, flag. -/
structure Found (K : Type) where
  x : List K
  err : Err K
  nIter : Int
  converged : Bool

/-- The root-solving process (Shooting.py:675-749).  `none` means that there was not enough fuel. -/
def findRoot (S : Scipy K) (norm : List K → K) (newton : List K → List K → Py (List K)) (o : Opts K) (alg : String)
    (fuel : Nat) (F : List K → Py (List K)) (x0 : List K) : Py (Option (Found K)) :=
  if alg ∈ minimizeAlgorithms then do
    let cost : List K → Py K := if alg ∈ constrainedAlgorithms then fun _ => .ok 0 else fun x => do .ok (norm (← F x) ^ 2)
    let r ← S.minimize alg cost F x0
    .ok (some ⟨r.1.x, .num (.val r.2), r.1.nit, r.1.success && isclose0 r.2 o.tol⟩)
  else if alg ∈ rootAlgorithms then do
    let r ← S.root alg F x0
    .ok (some ⟨r.1.x, .arr r.2, -1, r.1.success⟩)
  else if alg.toLower = "fsolve" then do
    let x ← S.fsolve F x0
    let e := norm (← F x0) ^ 2
    .ok (some ⟨x, .num (.val e), -1, isclose0 e o.tol⟩)
  else if alg.toLower = "armijo" then do
    match ← armijo ⟨fun x => (F x).map (List.map some), norm, newton⟩ o fuel fuel ⟨x0, .val (-1), 0, false, []⟩ with
    | none => .ok none
    | some s => .ok (some ⟨s.x, .num s.err, s.nIter, s.converged⟩)
  else .error .notImplementedError

/-- The messages (Shooting.py:764-774). -/
inductive Message where
  | unknownNumber
  | convergedIn (n : Int)
  | maxIterations
  | maxError
  | unspecified
  deriving DecidableEq, Repr

/-- `if err < self.tolerance and converged` (Shooting.py:764): the truth value of an array of other than one element is an error. -/
def errLt (e : Err K) (k : K) : Py Bool :=
  match e with
  | .num f => .ok (f.lt k)
  | .arr [a] => .ok (decide (a < k))
  | .arr _ => .error .valueError

/-- `err > self.max_error` (Shooting.py:771). -/
def errGt (e : Err K) (k : K) : Py Bool :=
  match e with
  | .num f => .ok (f.gt k)
  | .arr [a] => .ok (decide (k < a))
  | .arr _ => .error .valueError

/-- The choice of the message (Shooting.py:764-774). -/
def message (o : Opts K) (f : Found K) : Py Message := do
  if (← errLt f.err o.tol) && f.converged then
    if f.nIter = -1 then .ok .unknownNumber else .ok (.convergedIn f.nIter)
  else if f.nIter > (o.maxIter : Int) then .ok .maxIterations
  else if ← errGt f.err o.maxErr then .ok .maxError
  else .ok .unspecified

/-- The rows of an array (Shooting.py:776-786). -/
def rows : Arr K → List (List K)
  | .vec l => l.map fun a => [a]
  | .mat _ r => r

/-- The result (Shooting.py:788-799). -/
structure Result (K : Type) where
  t : List K
  y : List (List K)
  q : List (List K)
  p : List K
  pn : List K
  converged : Bool
  message : Message
  nIter : Int
  deriving DecidableEq

/-- `gamma_set[0].t` followed by `gamma_set[ii + 1].t[1:]` and so on (Shooting.py:776-786). -/
def stitch {α : Type} : List (List α) → List α
  | [] => []
  | l :: ls => l ++ ls.flatMap List.tail

/-- The number of states (Shooting.py:460, 470): `sol.y[0, :]` needs a matrix with a row. -/
def nStates (sol : Curve K) : Py Nat :=
  match sol.y with
  | .mat c (_ :: _) => .ok c
  | _ => .error .indexError

/-- The number of quadratures (Shooting.py:461-464, 471). -/
def nQuads (E : Env K) (sol : Curve K) : Py Nat :=
  match E.quad, sol.q with
  | none, _ => .ok 0
  | _, .vec [] => .ok 0
  | _, .mat 0 _ => .ok 0
  | _, .mat _ [] => .ok 0
  | _, .mat c (_ :: _) => .ok c
  | _, .vec _ => .error .indexError

/-- `Shooting.solve` (Shooting.py:429-799) for a guess with dynamical parameters `p` and non-dynamical ones `pn`. -/
def solve (E : Env K) (S : Scipy K) (norm : List K → K) (newton : List K → List K → Py (List K)) (o : Opts K) (alg : String)
    (fuel nA : Nat) (sol : Curve K) (p pn : List K) : Py (Option (Result K)) := do
  let nO ← nStates sol
  let nQ ← nQuads E sol
  let z : Sizes := ⟨nO, nQ, p.length, nA⟩
  let gs ← makeArcs sol nA
  let x0 ← wrap gs p pn
  match ← findRoot S norm newton o alg fuel (residual E gs z) x0 with
  | none => .ok none
  | some f => do
    let g ← shoot E gs z f.x
    let m ← message o f
    .ok (some ⟨stitch (g.1.map fun a => a.t), stitch (g.1.map fun a => rows a.y), stitch (g.1.map fun a => rows a.q),
      g.2.1, g.2.2, f.converged, m, f.nIter⟩)

end

end Beluga.Shoot
