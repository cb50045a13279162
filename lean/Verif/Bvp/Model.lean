import Verif.Shooting.Model

/-!
# The collocation solver and the functions set on a solver object

`SPBVP.solve` (numeric/bvp_solvers/SPBVP.py:26-127), the setters of `BaseAlgorithm` (BaseAlgorithm.py:15-67) and the cached
functions of `Shooting` (Shooting.py:186-202, 475-481).

Numbers are exact.  Two-dimensional arrays are lists of rows; arrays that the code transposes before and after use are kept
untransposed, one row per node.  `scipy.integrate.solve_bvp` is a parameter that receives the arguments the code passes; it
calls the functions with parameters only if there are some (scipy's documented interface), which is why `params` is an
`Option`.  Trajectory objects live on a heap so that "the guess is not modified" can be expressed.
-/

namespace Beluga.Bvp

open Beluga.Traj (Arr Curve)
open Beluga.Shoot (Fn)

/-- A trajectory object (numeric/data_classes/Trajectory.py:15-60).  The attributes `dual_t`, `dual_u` and `cost`, which
the solver does not touch, are left out. -/
structure Sol (K : Type) where
  t : List K
  y : Arr K
  q : Arr K
  u : Arr K
  dual : Arr K
  dyn : List K
  nondyn : List K
  const : List K
  converged : Bool

/-- Trajectory objects, addressed by position (SPBVP.py:26-127). -/
abbrev Heap (K : Type) := List (Sol K)

/-- A Jacobian of the right-hand side: `df_dy, df_dp` (SPBVP.py:66-82). -/
abbrev DJac (K : Type) := List (List K) → Py (Arr K × Arr K)

/-- A Jacobian of the boundary conditions: a tuple of arrays (SPBVP.py:86-98). -/
abbrev BJac (K : Type) := List (List K) → Py (List (Arr K))

/-- The functions set on a solver object (BaseAlgorithm.py:17-25). -/
structure Alg (K : Type) where
  deriv : Option (Fn K)
  quad : Option (Fn K)
  bc : Option (Fn K)
  derivJac : Option (DJac K)
  bcJac : Option (BJac K)

/-- Calling an attribute that may be `None` (SPBVP.py:50, 53, 57-58). -/
def callOpt {α K : Type} (f : Option (List (List K) → Py α)) (args : List (List K)) : Py α :=
  match f with
  | none => .error .typeError
  | some f => f args

/-- `return_nil` (SPBVP.py:33-34). -/
def returnNil {K : Type} : Fn K := fun _ => .ok []

section
variable {K : Type}

/-- `a.size` (SPBVP.py:36, 42-43). -/
def size : Arr K → Nat
  | .vec l => l.length
  | .mat c rows => c * rows.length

/-- `a.shape[1]` (SPBVP.py:29, 37). -/
def shape1 : Arr K → Py Nat
  | .vec _ => .error .indexError
  | .mat c _ => .ok c

/-- The rows of a two-dimensional array (SPBVP.py:50-59). -/
def matRows : Arr K → List (List K)
  | .vec _ => []
  | .mat _ rows => rows

/-- `np.vstack` of one-dimensional arrays (SPBVP.py:50, 57-58). -/
def vstack : List (List K) → Py (List (List K))
  | [] => .error .valueError
  | r :: rs => if ∀ s ∈ rs, s.length = r.length then .ok (r :: rs) else .error .valueError

/-- `np.hstack` of two-dimensional arrays (SPBVP.py:59, 77). -/
def hstack2 (a b : List (List K)) : Py (List (List K)) :=
  if a.length = b.length then .ok (List.zipWith (· ++ ·) a b) else .error .valueError

/-- The sizes of the stacked problem (SPBVP.py:29, 36-43). -/
structure Dims where
  nY : Nat
  nQ : Nat
  nP : Nat
  nN : Nat
  deriving DecidableEq, Repr

/-- `_fun` (SPBVP.py:47-60): one row per node. -/
def stackFun (A : Alg K) (d : Dims) (const : List K) (ys : List (List K)) (params : Option (List K)) :
    Py (List (List K)) :=
  let p := params.getD []
  if d.nQ = 0 then do
    vstack (← ys.mapM fun yi => callOpt A.deriv [yi.take d.nY, p.take d.nP, const])
  else do
    let o1 ← vstack (← ys.mapM fun yi => callOpt A.deriv [yi.take d.nY, p.take d.nP, const])
    let o2 ← vstack (← ys.mapM fun yi => callOpt A.quad [yi.take d.nY, p.take d.nP, const])
    hstack2 o1 o2

/-- `_bc` (SPBVP.py:52-53, 62-65). -/
def stackBc (A : Alg K) (d : Dims) (const ya yb : List K) (params : Option (List K)) : Py (List K) :=
  let p := params.getD []
  if d.nQ = 0 then
    callOpt A.bc [ya, yb, p.take d.nP, (p.drop d.nP).take d.nN, const]
  else
    callOpt A.bc [ya.take d.nY, (ya.drop d.nY).take d.nQ, yb.take d.nY, (yb.drop d.nY).take d.nQ, p.take d.nP,
      (p.drop d.nP).take d.nN, const]

variable [Zero K]

/-- `x[:, :, ii] = a` for a slice of `n` rows and `m` columns: NumPy repeats a single row or column (SPBVP.py:73, 77). -/
def assign2 (n m : Nat) (a : Arr K) : Py (List (List K)) :=
  let widen (r : List K) := if r.length = m then r else List.replicate m (r.getD 0 0)
  match a with
  | .vec l => if l.length = m ∨ l.length = 1 then .ok (List.replicate n (widen l)) else .error .valueError
  | .mat c rows =>
    if (rows.length = n ∨ rows.length = 1) ∧ (c = m ∨ c = 1) then
      .ok ((if rows.length = n then rows else List.replicate n (rows.getD 0 [])).map widen)
    else .error .valueError

/-- The derivatives with respect to the parameters at one node (SPBVP.py:75-78): a one-dimensional array becomes a column,
the columns of the non-dynamical parameters are zero. -/
def padParams (d : Dims) (a : Arr K) : Py (Arr K) :=
  let a := match a with
    | .vec l => if 1 < d.nY then Arr.mat 1 (l.map fun x => [x]) else .vec l
    | .mat c rows => .mat c rows
  match a with
  | .vec _ => .error .valueError
  | .mat c rows =>
    if rows.length = d.nY then .ok (.mat (c + d.nN) (rows.map fun r => r ++ List.replicate d.nN 0)) else .error .valueError

/-- `_fun_jac` (SPBVP.py:67-83): one pair of matrices per node, the second one only if there are parameters.  `y[0].size` of no
node at all is an `IndexError`. -/
def stackFunJac (J : DJac K) (d : Dims) (const : List K) (ys : List (List K)) (params : Option (List K)) :
    Py (List (List (List K)) × Option (List (List (List K)))) :=
  let p := params.getD []
  match ys with
  | [] => .error .indexError
  | y0 :: _ => do
    let n := y0.length
    let js ← ys.mapM fun yi => do
      let j ← J [yi, p.take d.nP, const]
      let dy ← assign2 n n j.1
      let dp ← padParams d j.2
      let dp ← assign2 n (d.nP + d.nN) dp
      .ok (dy, dp)
    .ok (js.map (·.1), if d.nP + d.nN = 0 then none else some (js.map (·.2)))

/-- `_bc_jac` (SPBVP.py:87-100): the tuple must have three entries. -/
def stackBcJac (J : BJac K) (d : Dims) (const ya yb : List K) (params : Option (List K)) : Py (List (Arr K)) := do
  let p := params.getD []
  let r ← if 0 < d.nQ then
      J [ya.take d.nY, (ya.drop d.nY).take d.nQ, yb.take d.nY, (yb.drop d.nY).take d.nQ, p.take d.nP,
        (p.drop d.nP).take d.nN, const]
    else J [ya, yb, p.take d.nP, (p.drop d.nP).take d.nN, const]
  match r with
  | [a, b, c] => .ok [a, b, c]
  | _ => .error .valueError

/-- What `solve_bvp` receives (SPBVP.py:104-111). -/
structure Stacked (K : Type) where
  fn : List (List K) → Option (List K) → Py (List (List K))
  bc : List K → List K → Option (List K) → Py (List K)
  fnJac : Option (List (List K) → Option (List K) → Py (List (List (List K)) × Option (List (List (List K)))))
  bcJac : Option (List K → List K → Option (List K) → Py (List (Arr K)))
  x : List K
  y : List (List K)
  p : List K

/-- What `solve_bvp` returns: `opt['x']`, `opt['y'].T`, `opt['p']`, `opt['success']` (SPBVP.py:112-123). -/
structure Answer (K : Type) where
  x : List K
  y : List (List K)
  p : Option (List K)
  success : Bool

/-- The sizes read from the guess, and the solver object afterwards (SPBVP.py:29-43): without quadratures the function is
replaced by one that returns nothing. -/
def dims (A : Alg K) (s : Sol K) : Alg K × Py Dims :=
  match shape1 s.y with
  | .error e => (A, .error e)
  | .ok nY =>
    if 0 < size s.q then
      match shape1 s.q with
      | .error e => (A, .error e)
      | .ok nQ => (A, .ok ⟨nY, nQ, s.dyn.length, s.nondyn.length⟩)
    else ({ A with quad := some returnNil }, .ok ⟨nY, 0, s.dyn.length, s.nondyn.length⟩)

/-- The nodes handed to scipy (SPBVP.py:104-111). -/
def stackRows (d : Dims) (s : Sol K) : Py (List (List K)) :=
  if 0 < d.nQ then hstack2 (matRows s.y) (matRows s.q) else .ok (matRows s.y)

/-- The stacked problem (SPBVP.py:45-111). -/
def stacked (A : Alg K) (d : Dims) (s : Sol K) : Py (Stacked K) := do
  let y ← stackRows d s
  .ok ⟨stackFun A d s.const, stackBc A d s.const, A.derivJac.map fun J => stackFunJac J d s.const,
    A.bcJac.map fun J => stackBcJac J d s.const, s.t, y, s.dyn ++ s.nondyn⟩

/-- Writing the answer into the trajectory (SPBVP.py:113-126). -/
def unstack (d : Dims) (r : Answer K) (s : Sol K) : Sol K :=
  let y := r.y.map fun row => row.take d.nY
  { s with
    t := r.x
    y := .mat d.nY y
    q := .mat d.nQ (r.y.map fun row => (row.drop d.nY).take d.nQ)
    dual := .mat d.nY (y.map fun row => row.map fun _ => 0)
    dyn := match r.p with
      | some p => p.take d.nP
      | none => []
    nondyn := match r.p with
      | some p => (p.drop d.nP).take d.nN
      | none => []
    converged := r.success }

/-- `SPBVP.solve(solinit)` (SPBVP.py:26-131) for the object at `ref`: the solver object afterwards, the heap afterwards and
the object returned.  `copy.deepcopy` makes a new object; `Trajectory(solinit)` is that object itself
(Trajectory.py:25-26). -/
def solve (bvp : Stacked K → Py (Answer K)) (A : Alg K) (h : Heap K) (ref : Nat) : Alg K × Heap K × Py Nat :=
  match h[ref]? with
  | none => (A, h, .error .attributeError)
  | some s =>
    let h' := h ++ [s]
    let r := dims A s
    match r.2 with
    | .error e => (r.1, h', .error e)
    | .ok d =>
      match stacked r.1 d s with
      | .error e => (r.1, h', .error e)
      | .ok prob =>
        match bvp prob with
        | .error e => (r.1, h', .error e)
        | .ok ans => (r.1, h'.set h.length (unstack d ans s), .ok h.length)

end

/-! ## Functions set on a solver object -/

/-- The attributes of a `Shooting` object; `bcMs` and `stm` are what the cached functions were made from
(Shooting.py:187-203, BaseAlgorithm.py:14-66). -/
structure Shooter (F : Type) where
  deriv : Option F
  quad : Option F
  bc : Option F
  derivJac : Option F
  bcJac : Option F
  ineq : Option F
  bcMs : Option (Option F)
  stm : Option (Option F × Nat)
  deriving DecidableEq

/-- The setters and `solve` for a guess with `n` states; `none` for a guess whose reading raises (`sol.y[0, :]`)
(BaseAlgorithm.py:14-66). -/
inductive Op (F : Type) where
  | setBc (f : Option F)
  | setBcJac (f : Option F)
  | setDeriv (f : Option F)
  | setDerivJac (f : Option F)
  | setQuad (f : Option F)
  | setIneq (f : Option F)
  | solve (n : Option Nat)
  deriving DecidableEq

/-- What a call of `solve` works with: the cached functions' origins and the functions read directly (the state-transition
function reads `self.derivative_function_jac` whenever it is called, Shooting.py:402). -/
structure Used (F : Type) where
  deriv : Option F
  quad : Option F
  bcMs : Option F
  stmDeriv : Option F
  stmJac : Option F
  stmStates : Nat
  deriving DecidableEq

variable {F : Type}

/-- `Shooting.__init__` (BaseAlgorithm.py:15-37, Shooting.py:186-202). -/
def Shooter.init (deriv quad bc : Option F) : Shooter F :=
  ⟨deriv, quad, bc, none, none, none, bc.map some, none⟩

/-- One operation: the object afterwards and, for `solve`, the functions it works with (BaseAlgorithm.py:39-67,
Shooting.py:475-481, 505-523). -/
def Shooter.step (s : Shooter F) : Op F → Shooter F × Option (Used F)
  | .setBc f => ({ s with bc := f, bcMs := none }, none)
  | .setBcJac f => ({ s with bcJac := f }, none)
  | .setDeriv f => ({ s with deriv := f, stm := none }, none)
  | .setDerivJac f => ({ s with derivJac := f }, none)
  | .setQuad f => ({ s with quad := f }, none)
  | .setIneq f => ({ s with ineq := f }, none)
  | .solve none => (s, none)
  | .solve (some n) =>
    let stm := s.stm.getD (s.deriv, n)
    let bcMs := s.bcMs.getD s.bc
    ({ s with stm := some stm, bcMs := some bcMs }, some ⟨s.deriv, s.quad, bcMs, stm.1, s.derivJac, stm.2⟩)

/-- A sequence of operations and what the calls of `solve` worked with (BaseAlgorithm.py:14-66, Shooting.py:475-481). -/
def Shooter.run (s : Shooter F) : List (Op F) → Shooter F × List (Used F)
  | [] => (s, [])
  | o :: os =>
    let r := s.step o
    let rest := Shooter.run r.1 os
    (rest.1, r.2.toList ++ rest.2)

end Beluga.Bvp
