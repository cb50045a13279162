import Verif.Py

/-!
# Model of `beluga/continuation/continuation.py`

The four strategy classes are one record `Strat` with a `kind`; every attribute used by the classes is a field.
A trajectory is reduced to what this file of the code looks at: the vector of constants and the `converged`
flag; everything else (`t`, `y`, ... ) is an opaque payload `data : α` that is copied around.
-/

namespace Beluga.Cont

variable {K : Type _} {α : Type _}

/-- A `Trajectory` as seen by the continuation code (`Trajectory.py:20-60`): `const`, `converged`, and an opaque
rest.  `converged` is a Python `bool` (so `converged is False` and `not converged` coincide). -/
structure Traj (K : Type _) (α : Type _) where
  const : List K
  converged : Bool
  data : α
  deriving DecidableEq

/-- `ContinuationVariable` (continuation.py:57-69).  `value` starts as NaN in the code; it is `none` here. -/
structure ContVar (K : Type _) where
  target : K
  value : Option K := none
  steps : List K := []

/-- The strategy classes (continuation.py:151, 229, 292, 379). -/
inductive Kind where
  | manual
  | bisection
  | product
  | sparse
  deriving DecidableEq, Repr

/-- The `spacing` argument of `num_cases` (continuation.py:216); any other string is `other`. -/
inductive Spacing where
  | linear
  | log
  | other
  deriving DecidableEq, Repr

/-- All attributes of a strategy object.
`vars` is the insertion-ordered dict `self.vars`; `numCases` is `_num_cases`; `numSub` is the product strategy's
`_num_subdivisions`; `major`/`minor` are the two tuples of the sparse strategy's `_num_subdivisions`
(continuation.py:72-498). -/
structure Strat (K : Type _) (α : Type _) where
  kind : Kind
  gammas : List (Traj K α) := []
  vars : List (String × ContVar K) := []
  ctr : Nat := 0
  constNames : List String := []
  numCases : Nat := 1
  spacing : Spacing := .linear
  numDivisions : Nat := 2
  maxDivisions : Nat := 10
  divisionCtr : Nat := 0
  numSub : Nat := 1
  major : List Nat := [1]
  minor : List Nat := [0]

/-- `ManualStrategy()` (continuation.py:158-171): one case by default. -/
def Strat.newManual (numCases : Nat := 1) : Strat K α := { kind := .manual, numCases := numCases }

/-- `BisectionStrategy()` (continuation.py:235-241). -/
def Strat.newBisection (initialNumCases : Nat := 5) (maxDivisions : Nat := 10) (numDivisions : Nat := 2) :
    Strat K α :=
  { kind := .bisection, numCases := initialNumCases, maxDivisions := maxDivisions, numDivisions := numDivisions }

/-- `ProductStrategy()` (continuation.py:298-312); `_num_cases` is `None` until `init`, here `0`. -/
def Strat.newProduct (numSub : Nat := 1) : Strat K α := { kind := .product, numCases := 0, numSub := numSub }

/-- `SparseProductStrategy()` (continuation.py:385-401). -/
def Strat.newSparse (major : List Nat := [1]) (minor : List Nat := [0]) : Strat K α :=
  { kind := .sparse, numCases := 0, major := major, minor := minor }

/-- Assignment `d[k] = v` on an insertion-ordered dict (continuation.py:213, 338, 427). -/
def dictSet {β : Type _} (k : String) (v : β) : List (String × β) → List (String × β)
  | [] => [(k, v)]
  | (k', v') :: rest => if k' = k then (k, v) :: rest else (k', v') :: dictSet k v rest

/-- `set` / `const(name, target)` (continuation.py:208-214, 334-339, 423-428). -/
def Strat.const (s : Strat K α) (name : String) (target : K) : Strat K α :=
  { s with vars := dictSet name { target := target } s.vars }

/-- Setter use of `num_cases(n, spacing)` (continuation.py:216-226). -/
def Strat.setNumCases (s : Strat K α) (n : Nat) (spacing : Spacing := .linear) : Py (Strat K α) :=
  if s.ctr > 0 then .error .runtimeError
  else .ok { s with numCases := n, spacing := spacing }

/-- Setter use of `num_subdivisions` (continuation.py:369-376). -/
def Strat.setNumSub (s : Strat K α) (n : Nat) : Py (Strat K α) :=
  if s.ctr > 0 then .error .runtimeError else .ok { s with numSub := n }

/-- Setter use of `num_subdivisions` of the sparse strategy, which takes two tuples (continuation.py:491-498). -/
def Strat.setNumSubs (s : Strat K α) (major minor : List Nat) : Py (Strat K α) :=
  if s.ctr > 0 then .error .runtimeError else .ok { s with major := major, minor := minor }

/-- `reset` (continuation.py:176-179, 329-332, 418-421): only the counter (and an unused field) is reset. -/
def Strat.reset (s : Strat K α) : Strat K α := { s with ctr := 0 }

/-- `ManualStrategy.clear` (continuation.py:181-184), inherited by the bisection. -/
def Strat.clear (s : Strat K α) : Strat K α := { s with vars := [] }.reset

/-- `add_gamma` (continuation.py:94-95). -/
def Strat.addGamma (s : Strat K α) (g : Traj K α) : Strat K α := { s with gammas := s.gammas ++ [g] }

/-- `ContinuationStrategy.init` (continuation.py:107-115): the guess is stored with `converged = False`. -/
def Strat.baseInit (s : Strat K α) (g : Traj K α) (names : List String) : Strat K α :=
  { s with gammas := [{ g with converged := false }], constNames := names }

section
variable [Field K] [LinearOrder K]

/-- `gamma_norm` (continuation.py:19-21): L1 distance (arrays of equal length). -/
def gammaNorm (c1 c2 : List K) : K := (List.zipWith (fun a b => |b - a|) c1 c2).sum

/-- The sentinel distance `9e99` (continuation.py:101). -/
def sentinel : K := ((9 * 10 ^ 99 : Nat) : K)

/-- The list `norms` of `get_closest_gamma` (continuation.py:98-103). -/
def norms (gammas : List (Traj K α)) (c : List K) : List K :=
  gammas.map fun g => if g.converged = false then sentinel else gammaNorm g.const c

/-- `get_closest_gamma` (continuation.py:97-105). -/
def getClosest (gammas : List (Traj K α)) (c : List K) : Py Nat := argmin (norms gammas c)

/-- The loop writing the step values into `const0` (continuation.py:131-134); `total_change` is unused by the
code and dropped. -/
def applyVars (names : List String) (ctr : Nat) : List (String × ContVar K) → List K → Py (List K)
  | [], c => .ok c
  | (n, v) :: rest, c => do
    let jj ← Py.index names n
    let x ← Py.get v.steps ctr
    let c' ← Py.set c jj x
    applyVars names ctr rest c'

/-- `ContinuationStrategy.next(ignore_last_step)` (continuation.py:117-141). -/
def Strat.baseNext (s : Strat K α) (ignoreLast : Bool) : Py (Traj K α × Strat K α) :=
  match s.gammas.getLast? with
  | none => .error .valueError
  | some last =>
    if ignoreLast = false ∧ s.gammas.length ≠ 1 ∧ last.converged = false then .error .runtimeError
    else if s.numCases ≤ s.ctr then .error .stopIteration
    else do
      let const0 ← applyVars s.constNames s.ctr s.vars last.const
      let i ← getClosest s.gammas const0
      let g ← Py.get s.gammas i
      .ok ({ g with const := const0 }, { s with ctr := s.ctr + 1 })

/-- New points put between two neighbouring cases (continuation.py:268-274), first and last dropped. -/
def newSteps (L : LogOps K) (sp : Spacing) (a b : K) (numDivisions : Nat) : Py (List K) :=
  match sp with
  | .linear => .ok ((linspace a b (numDivisions + 1)).tail.dropLast)
  | .log => .ok ((logspace L (L.log10 a) (L.log10 b) (numDivisions + 1)).tail.dropLast)
  | .other => .error .valueError

/-- Body of the loop over the variables (continuation.py:266-281). -/
def bisectVar (L : LogOps K) (sp : Spacing) (ctr numDivisions : Nat) (v : ContVar K) : Py (ContVar K) := do
  let a ← Py.get v.steps (ctr - 2)
  let b ← Py.get v.steps (ctr - 1)
  let new ← newSteps L sp a b numDivisions
  .ok { v with steps := npInsert v.steps (ctr - 1) new }

/-- The loop over the variables (continuation.py:266-281). -/
def bisectVars (L : LogOps K) (sp : Spacing) (ctr numDivisions : Nat) :
    List (String × ContVar K) → Py (List (String × ContVar K))
  | [] => .ok []
  | (n, v) :: rest => do
    let v' ← bisectVar L sp ctr numDivisions v
    let rest' ← bisectVars L sp ctr numDivisions rest
    .ok ((n, v') :: rest')

/-- `gammas[-1].converged`, `IndexError` on an empty list (continuation.py:121, 250, 318, 407). -/
def Strat.lastConverged (s : Strat K α) : Py Bool :=
  match s.gammas.getLast? with
  | none => .error .indexError
  | some g => .ok g.converged

/-- `BisectionStrategy.next` (continuation.py:243-289); used with `ctr ≥ 2` after the first two branches, so the
Python indices `ctr-2` and `ctr-1` are non-negative. -/
def Strat.bisectionNext (L : LogOps K) (s : Strat K α) : Py (Traj K α × Strat K α) := do
  let go ← (if s.ctr = 0 then .ok true else s.lastConverged)
  if go then
    Strat.baseNext { s with divisionCtr := 0 } false
  else if s.ctr = 1 then .error .runtimeError
  else if s.divisionCtr > s.maxDivisions then .error .runtimeError
  else do
    let vars' ← bisectVars L s.spacing s.ctr s.numDivisions s.vars
    Strat.baseNext
      { s with
          vars := vars'
          ctr := s.ctr - 1
          numCases := s.numCases + s.numDivisions - 1
          divisionCtr := s.divisionCtr + 1 } true

/-- `ProductStrategy.next` and `SparseProductStrategy.next` (continuation.py:317-327, 406-416). -/
def Strat.productNext (s : Strat K α) : Py (Traj K α × Strat K α) := do
  let go ← (if s.ctr = 0 then .ok true else s.lastConverged)
  if go then
    Strat.baseNext { s with divisionCtr := 0 } false
  else if s.ctr = 1 then .error .runtimeError
  else Strat.baseNext s true

/-- `__next__` (continuation.py:88-89) dispatched on the class. -/
def Strat.next (L : LogOps K) (s : Strat K α) : Py (Traj K α × Strat K α) :=
  match s.kind with
  | .manual => s.baseNext false
  | .bisection => s.bisectionNext L
  | .product => s.productNext
  | .sparse => s.productNext

/-- Schedule of one variable in `ManualStrategy.init` (continuation.py:199-206); with an unknown spacing the old
steps stay. -/
def manualSteps (L : LogOps K) (sp : Spacing) (v : ContVar K) (value : K) (n : Nat) : List K :=
  match sp with
  | .linear => linspace value v.target n
  | .log => logspace L (L.log10 value) (L.log10 v.target) n
  | .other => v.steps

/-- The loop of `ManualStrategy.init` (continuation.py:191-206). -/
def manualInitVars (L : LogOps K) (sp : Spacing) (n : Nat) (names : List String) (c : List K) :
    List (String × ContVar K) → Py (List (String × ContVar K))
  | [] => .ok []
  | (nm, v) :: rest => do
    let jj ← Py.index names nm
    let value ← Py.get c jj
    let rest' ← manualInitVars L sp n names c rest
    .ok ((nm, { v with value := some value, steps := manualSteps L sp v value n }) :: rest')

/-- `ManualStrategy.init`, inherited by `BisectionStrategy` (continuation.py:187-206). -/
def Strat.manualInit (L : LogOps K) (s : Strat K α) (sol : Traj K α) (names : List String) : Py (Strat K α) := do
  let vars' ← manualInitVars L s.spacing s.numCases names sol.const s.vars
  .ok { s.baseInit sol names with vars := vars' }

/-- First loop of the product strategies' `init` (continuation.py:346-348, 437-441): look up current values. -/
def valueVars (names : List String) (c : List K) :
    List (String × ContVar K) → Py (List (String × ContVar K))
  | [] => .ok []
  | (nm, v) :: rest => do
    let jj ← Py.index names nm
    let value ← Py.get c jj
    let rest' ← valueVars names c rest
    .ok ((nm, { v with value := some value }) :: rest')

/-- `itertools.product(*ls)`: the last factor varies fastest (continuation.py:352). -/
def cartesian {β : Type _} : List (List β) → List (List β)
  | [] => [[]]
  | l :: ls => l.flatMap fun x => (cartesian ls).map (x :: ·)

/-- Appending the points of a schedule to the per-variable step lists (continuation.py:352-356, 475-477). -/
def appendSteps (vars : List (String × ContVar K)) (pt : List K) : Py (List (String × ContVar K)) :=
  match vars, pt with
  | [], _ => .ok []
  | _ :: _, [] => .error .indexError
  | (nm, v) :: rest, x :: xs => do
    let rest' ← appendSteps rest xs
    .ok ((nm, { v with steps := v.steps ++ [x] }) :: rest')

/-- The outer loop over the schedule (continuation.py:352, 475). -/
def appendAll (vars : List (String × ContVar K)) : List (List K) → Py (List (String × ContVar K))
  | [] => .ok vars
  | pt :: pts => do
    let vars' ← appendSteps vars pt
    appendAll vars' pts

/-- Current value of a variable after `valueVars` (never the default there) (continuation.py:57-69). -/
def ContVar.val (v : ContVar K) : K := v.value.getD 0

/-- `ProductStrategy.init` (continuation.py:341-356).  `num_cases(...)` raises when the counter is positive
(continuation.py:362-363); steps are appended to what is already in `steps`. -/
def Strat.productInit (s : Strat K α) (sol : Traj K α) (names : List String) : Py (Strat K α) := do
  let s1 := s.baseInit sol names
  if s1.ctr > 0 then .error .runtimeError
  else do
    let vars1 ← valueVars names sol.const s1.vars
    let grid := cartesian (vars1.map fun nv => linspace nv.2.val nv.2.target s.numSub)
    let vars2 ← appendAll vars1 grid
    .ok { s1 with vars := vars2, numCases := s.numSub ^ s.vars.length }

/-- Points on one major segment in direction `n` (continuation.py:460-468): the minor points followed by the
next major point. -/
def sparseSegment (n minor : Nat) (p0 : List K) (x0 x1 : K) : List (List K) :=
  ((linspaceOpen x0 x1 (minor + 1)).tail.map fun x => p0.set n x) ++ [p0.set n x1]

/-- All segments of a line of major points in direction `n` (continuation.py:460-468). -/
def sparseLine (n minor : Nat) (p : List K) : List K → List (List K)
  | x0 :: x1 :: xs => sparseSegment n minor p x0 x1 ++ sparseLine n minor p (x1 :: xs)
  | _ => []

/-- The loop over the dimensions (continuation.py:450-471): state is `(step_list, major_point_cloud)`; a missing
entry in the subdivision tuples raises `IndexError`. -/
def sparseDims (lower upper : List K) (major minor : List Nat) :
    List Nat → List (List K) → List (List K) → Py (List (List K) × List (List K))
  | [], steps, cloud => .ok (steps, cloud)
  | n :: ns, steps, cloud => do
    let lo ← Py.get lower n
    let hi ← Py.get upper n
    let m ← Py.get major n
    let series := linspace lo hi m
    -- `minor_num_steps[n]` is only read when a segment exists
    let mi ← (if series.length ≤ 1 then .ok 0 else Py.get minor n)
    let new := cloud.flatMap fun p => series.tail.map fun x => p.set n x
    let steps' := steps ++ cloud.flatMap fun p => sparseLine n mi p series
    sparseDims lower upper major minor ns steps' (cloud ++ new)

/-- `SparseProductStrategy.init` (continuation.py:430-477). -/
def Strat.sparseInit (s : Strat K α) (sol : Traj K α) (names : List String) : Py (Strat K α) := do
  let s1 := s.baseInit sol names
  let vars1 ← valueVars names sol.const s1.vars
  let lower := vars1.map fun nv => nv.2.val
  let upper := vars1.map fun nv => nv.2.target
  let (steps, _) ← sparseDims lower upper s.major s.minor (List.range vars1.length) [lower] [lower]
  if s1.ctr > 0 then .error .runtimeError
  else do
    let vars2 ← appendAll vars1 steps
    .ok { s1 with vars := vars2, numCases := steps.length }

/-- `init` dispatched on the class (continuation.py:107, 187, 341, 430). -/
def Strat.init (L : LogOps K) (s : Strat K α) (sol : Traj K α) (names : List String) : Py (Strat K α) :=
  match s.kind with
  | .manual => s.manualInit L sol names
  | .bisection => s.manualInit L sol names
  | .product => s.productInit sol names
  | .sparse => s.sparseInit sol names

/-! ## `run_continuation_set` -/

/-- How the loop over one step ends (continuation.py:551-616). -/
inductive Ending where
  /-- `StopIteration`: the `for` loop of Python ends. -/
  | ended
  /-- another exception escapes -/
  | raised (e : PyErr)
  /-- the fuel of the model is used up (the Python loop is still running) -/
  | running
  deriving DecidableEq, Repr

/-- Result of the inner loop: the solved pairs `(guess, solution)` in order, the final strategy, the number of
solver calls made so far, and how it ended (continuation.py:560-608). -/
structure LoopRes (K : Type _) (α : Type _) where
  trace : List (Traj K α × Traj K α)
  strat : Strat K α
  calls : Nat
  ending : Ending

/-- The inner loop (continuation.py:567-616).  `solve n g` stands for scale, `bvp_algorithm_.solve`, unscale
(lines 575-585) in the `n`-th solver call; it may raise.  `trace` is `solution_set[step_idx]` together with
the guesses. -/
def stepLoop (L : LogOps K) (solve : Nat → Traj K α → Py (Traj K α)) :
    Nat → Strat K α → Nat → List (Traj K α × Traj K α) → LoopRes K α
  | 0, s, n, tr => ⟨tr, s, n, .running⟩
  | fuel + 1, s, n, tr =>
    match s.next L with
    | .error .stopIteration => ⟨tr, s, n, .ended⟩
    | .error e => ⟨tr, s, n, .raised e⟩
    | .ok (g, s') =>
      match solve n g with
      | .error e => ⟨tr, s', n + 1, .raised e⟩
      | .ok sol => stepLoop L solve fuel (s'.addGamma sol) (n + 1) (tr ++ [(g, sol)])

/-- Result of the whole set: a list of lists of solutions, or an exception, or not finished within the fuel
(continuation.py:500-618). -/
inductive SetRes (K : Type _) (α : Type _) where
  | returned (sols : List (List (Traj K α)))
  | raised (e : PyErr)
  | running

/-- The loop over the steps (continuation.py:551-616): `guess` is `sol_guess`, which after a step is a copy of its
last solution and is unchanged when the step solved nothing (line 609). `acc` is `solution_set`. -/
def runSteps (L : LogOps K) (solve : Nat → Traj K α → Py (Traj K α)) (names : List String) (fuel : Nat) :
    List (Strat K α) → Traj K α → Nat → List (List (Traj K α)) → SetRes K α
  | [], _, _, acc => .returned acc
  | s :: rest, guess, n, acc =>
    match s.reset.init L guess names with
    | .error e => .raised e
    | .ok s1 =>
      let r := stepLoop L solve fuel s1 n []
      match r.ending with
      | .running => .running
      | .raised e => .raised e
      | .ended =>
        let guess' := ((r.trace.map Prod.snd).getLast?).getD guess
        runSteps L solve names fuel rest guess' r.calls (acc ++ [r.trace.map Prod.snd])

/-- `run_continuation_set` (continuation.py:500-618): `steps = none` solves once, otherwise the steps are run. -/
def runContinuationSet (L : LogOps K) (solve : Nat → Traj K α → Py (Traj K α)) (names : List String)
    (fuel : Nat) (steps : Option (List (Strat K α))) (guess : Traj K α) : SetRes K α :=
  match steps with
  | none =>
    match solve 0 guess with
    | .error e => .raised e
    | .ok sol => .returned [[sol]]
  | some ss => runSteps L solve names fuel ss guess 0 []

end

/-! ## `ContinuationList` -/

/-- The argument of `add_step`: a strategy name or a strategy object (continuation.py:37-51). -/
inductive StepArg (K : Type _) (α : Type _) where
  | name (s : String)
  | obj (s : Strat K α)

/-- `self.strategy_list` (continuation.py:30-35) with the default constructor arguments: the classes of the module
that have a `strategy_name`. -/
def strategyList : List (String × Strat K α) :=
  [("bisection", .newBisection), ("manual", .newManual), ("productspace", .newProduct),
   ("sparse_product", .newSparse)]

/-- `ContinuationList.add_step` (continuation.py:37-54), constructor called without further arguments. -/
def addStep (l : List (Strat K α)) (a : StepArg K α) : Py (List (Strat K α)) :=
  match a with
  | .name n =>
    match strategyList.lookup n with
    | some s => .ok (l ++ [s])
    | none => .error .valueError
  | .obj s => .ok (l ++ [s])

end Beluga.Cont
