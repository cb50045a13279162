import Verif.Symbolic.Problem

/-!
# The compiled problem

`NumericProblem` (numeric/data_classes/NumericProblem.py) turns the symbolic boundary value problem into functions of
arrays, and `compile_control` (numeric/compilation/component_compilation.py:8-37) chooses between control options.

Numbers are exact; a division by zero has the value that `Field` gives it, so statements about it say nothing about
floating point.  The one place where the code's behaviour depends on `NaN`, the comparison of Hamiltonians, models it.
`njit` only changes speed and is the identity here.
-/

namespace Beluga.Num

open Beluga.Sym Beluga.Sym.Expr

/-- `a < b` for floats: false if one of them is `NaN` (`none`) (component_compilation.py:24-35). -/
def ltNan {K : Type} [LinearOrder K] : Option K → Option K → Bool
  | some a, some b => decide (a < b)
  | _, _ => false

/-- The loop of `calc_u` (component_compilation.py:31-35): the remaining options, the best so far and its value. -/
def selectGo {K U : Type} [LinearOrder K] (ham : U → Option K) : List U → U → Option K → U
  | [], u, _ => u
  | v :: rest, u, h => if ltNan (ham v) h then selectGo ham rest v (ham v) else selectGo ham rest u h

/-- `compile_control` (component_compilation.py:8-37) applied to the values of the options: `None` without options; a
single option is returned without evaluating the Hamiltonian. -/
def select {K U : Type} [LinearOrder K] (ham : U → Option K) : List U → Option U
  | [] => none
  | [u] => some u
  | u :: v :: rest => some (selectGo ham (v :: rest) u (ham u))

section
variable {K : Type} [Field K]

/-- Unpacking of the argument arrays by a lambdified function: `TypeError` for a wrong number of arguments,
`ValueError` if an array does not have as many entries as there are symbols (LocalCompiler.py:33-44). -/
def bindArgs : List (List Name) → List (List K) → Py (List (Name × K))
  | [], [] => .ok []
  | ns :: args, vs :: vals =>
    if ns.length ≠ vs.length then .error .valueError
    else do
      let rest ← bindArgs args vals
      .ok (ns.zip vs ++ rest)
  | _, _ => .error .typeError

/-- `lambdify(args, expr)(*vals)` (LocalCompiler.py:33-44).  A symbol that is not an argument is a `NameError` when the
function is called.  Argument names are distinct in every use (otherwise the first binding is taken). -/
def lambdify (I : Interp K) (args : List (List Name)) (e : Expr) (vals : List (List K)) : Py K := do
  let env ← bindArgs args vals
  if e.free.all fun s => (env.lookup s).isSome then .ok (eval I (fun s => (env.lookup s).getD 0) e)
  else .error .nameError

/-- The same for a list of expressions (LocalCompiler.py:33-44). -/
def lambdifyL (I : Interp K) (args : List (List Name)) (es : List Expr) (vals : List (List K)) : Py (List K) :=
  es.mapM fun e => lambdify I args e vals

/-- The same for a list of lists (LocalCompiler.py:33-44). -/
def lambdifyM (I : Interp K) (args : List (List Name)) (es : List (List Expr)) (vals : List (List K)) : Py (List (List K)) :=
  es.mapM fun e => lambdifyL I args e vals

/-- `extract_syms` of the components (NumericProblem.py:60-97). -/
def sts (p : Prob) : List Name := p.states.map Dyn.name
@[inherit_doc sts] def qds (p : Prob) : List Name := p.quads.map Dyn.name

variable [LinearOrder K]

/-- `self.compute_u` (NumericProblem.py:112-114).  `ham_func` exists only if there is a Hamiltonian (98-99); calling
`None` is a `TypeError`. -/
def computeU (I : Interp K) (p : Prob) (y pr k : List K) : Py (Option (List K)) :=
  match p.controlLaw with
  | [] => .ok none
  | [o] => do
    let u ← lambdifyL I [sts p, p.parameters, p.constants] o [y, pr, k]
    .ok (some u)
  | opts => do
    let us ← lambdifyM I [sts p, p.parameters, p.constants] opts [y, pr, k]
    match p.hamiltonian with
    | none => .error .typeError
    | some H => do
      let hs ← us.mapM fun u => do
        let h ← lambdify I [sts p, p.controls, p.parameters, p.constants] H [y, u, pr, k]
        .ok (u, h)
      .ok ((select (fun uh : List K × K => some uh.2) hs).map Prod.fst)

/-- `AlgebraicControlMapper.compute_u` (trajectory_mappers.py:179-219), compiled from the problem before the costates
are squashed into the states. -/
def mapperU (I : Interp K) (p : Prob) (t : K) (y lam pr k : List K) : Py (List K) :=
  match p.controlLaw with
  | [] => .error .runtimeError
  | [o] => lambdifyL I [[p.ind], sts p, p.costates.map Dyn.name, p.parameters, p.constants] o [[t], y, lam, pr, k]
  | opts => do
    let us ← lambdifyM I [[p.ind], sts p, p.costates.map Dyn.name, p.parameters, p.constants] opts [[t], y, lam, pr, k]
    match p.hamiltonian with
    | none => .error .attributeError
    | some H => do
      let hs ← us.mapM fun u => do
        let h ← lambdify I [[p.ind], sts p, p.costates.map Dyn.name, p.controls, p.parameters, p.constants] H
          [[t], y, lam, u, pr, k]
        .ok (u, h)
      match select (fun uh : List K × K => some uh.2) hs with
      | some uh => .ok uh.1
      | none => .error .indexError

/-- Equations evaluated at a point: with the chosen control if there is a control law
(NumericProblem.py:116-154, 347-361). -/
def atPoint (I : Interp K) (p : Prob) (es : List Expr) (y pr k : List K) : Py (List K) := do
  match ← computeU I p y pr k with
  | none => lambdifyL I [sts p, p.parameters, p.constants] es [y, pr, k]
  | some u => lambdifyL I [sts p, p.controls, p.parameters, p.constants] es [y, u, pr, k]

/-- `self.deriv_func` (NumericProblem.py:116-154, default `use_control_arg=False`). -/
def derivFunc (I : Interp K) (p : Prob) (y pr k : List K) : Py (List K) := atPoint I p (p.states.map Dyn.eom) y pr k

/-- `self.quad_func` (NumericProblem.py:128-130, 144-152): `None` without quadratures. -/
def quadFunc (p : Prob) : Option (Interp K → List K → List K → List K → Py (List K)) :=
  if p.quads.length > 0 then some fun I y pr k => atPoint I p (p.quads.map Dyn.eom) y pr k else none

/-- One end of `bc_func` (NumericProblem.py:163-226).  `q` is an argument only if the problem has quadratures. -/
def bcEnd (I : Interp K) (p : Prob) (cs : List Con) (y q pr pc k : List K) : Py (List K) := do
  let q := if p.quads.length > 0 then [(qds p, q)] else []
  match ← computeU I p y pr k with
  | none =>
    let a := [(sts p, y)] ++ q ++ [(p.parameters, pr), (p.constraintParams, pc), (p.constants, k)]
    lambdifyL I (a.map Prod.fst) (cs.map Con.expr) (a.map Prod.snd)
  | some u =>
    let a := [(sts p, y)] ++ q ++ [(p.controls, u), (p.parameters, pr), (p.constraintParams, pc), (p.constants, k)]
    lambdifyL I (a.map Prod.fst) (cs.map Con.expr) (a.map Prod.snd)

/-- `self.bc_func` (NumericProblem.py:155-226): the initial conditions at the left end, then the terminal conditions at
the right end. -/
def bcFunc (I : Interp K) (p : Prob) (y0 q0 yf qf pr pc k : List K) : Py (List K) := do
  let a ← bcEnd I p p.initial y0 q0 pr pc k
  let b ← bcEnd I p p.terminal yf qf pr pc k
  .ok (a ++ b)

/-- `self.deriv_func_jac` (NumericProblem.py:228-270) of a problem processed by `ComputeAnalyticalJacobians`.  The outer
`Py` is compilation: without parameters `df_dp` is `None`, and `tuplefy(np.array(None))` iterates over a 0-d array
(`TypeError`).  The inner function evaluates the partial derivatives with the chosen control inserted. -/
def derivJac (I : Interp K) (p : Prob) :
    Py (Option (List K → List K → List K → Py (List (List K) × List (List K)))) :=
  if p.dfdy = [] then .ok none
  else if p.dfdp = [] then .error .typeError
  else .ok (some fun y pr k => do
    match ← computeU I p y pr k with
    | none =>
      let a ← lambdifyM I [sts p, p.parameters, p.constants] p.dfdy [y, pr, k]
      let b ← lambdifyM I [sts p, p.parameters, p.constants] p.dfdp [y, pr, k]
      .ok (a, b)
    | some u =>
      let a ← lambdifyM I [sts p, p.controls, p.parameters, p.constants] p.dfdy [y, u, pr, k]
      let b ← lambdifyM I [sts p, p.controls, p.parameters, p.constants] p.dfdp [y, u, pr, k]
      .ok (a, b))

/-- `np.zeros((m, n))` (NumericProblem.py:155-333). -/
def zeros (m n : Nat) : List (List K) := List.replicate m (List.replicate n 0)

/-- `self.bc_func_jac` without quadratures (NumericProblem.py:272-333), together with the derivatives computed by
`ComputeAnalyticalJacobians` (mapping_functions.py:746-752): derivatives with respect to the initial states, the terminal
states and the parameters.  The controls are not among the arguments.  Without parameters `dbc_dp` is `None` and has no
`shape` (`AttributeError`, but only reached when `df_dp` has not already failed). -/
def bcJac (I : Interp K) (p : Prob) :
    Py (List K → List K → List K → List K → List K → Py (List (List K) × List (List K) × List (List K))) := do
  let pars := p.parameters ++ p.constraintParams
  let d0y ← jacobian (p.initial.map Con.expr) (sts p)
  let dfy ← jacobian (p.terminal.map Con.expr) (sts p)
  if pars = [] then .error .attributeError
  let d0p ← jacobian (p.initial.map Con.expr) pars
  let dfp ← jacobian (p.terminal.map Con.expr) pars
  let args := [sts p, p.parameters, p.constraintParams, p.constants]
  .ok fun y0 yf pr pc k => do
    let a ← lambdifyM I args d0y [y0, pr, pc, k]
    let b ← lambdifyM I args dfy [yf, pr, pc, k]
    let c ← lambdifyM I args d0p [y0, pr, pc, k]
    let d ← lambdifyM I args dfp [yf, pr, pc, k]
    .ok (a ++ zeros dfy.length (sts p).length, zeros d0y.length (sts p).length ++ b, c ++ d)

end

end Beluga.Num
