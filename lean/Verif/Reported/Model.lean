import Verif.Numeric.Model
import Verif.Mappers.Model

/-!
# The cost that is reported with a solution

`compile_cost` (numeric/compilation/component_compilation.py:40-59), which `DualizeMapper` compiles from the problem before
the dual variables are added (trajectory_mappers.py:112-127, mapping_functions.py:313, 390) and calls when a solution is
mapped back (trajectory_mappers.py:137-147).

Simplifications: exact arithmetic; `scipy.integrate.simpson` is a parameter `rule`, which is called with as many values as
times (otherwise `simpson` raises `ValueError`).
-/

namespace Beluga.Rep

open Beluga.Sym Beluga.Sym.Expr Beluga.Num Beluga.Map

variable {K : Type} [Field K]

/-- `a[0, :]` (component_compilation.py:46-57). -/
def firstRow : Arr K → Py (List K)
  | .rows _ (r :: _) => .ok r
  | _ => .error .indexError

/-- `a[-1, :]` (component_compilation.py:46-57). -/
def lastRow : Arr K → Py (List K)
  | .rows _ r => match r.getLast? with
    | some x => .ok x
    | none => .error .indexError
  | .empty => .error .indexError

/-- `_dynamic_args` (trajectory_mappers.py:124). -/
def dynArgs (q : Prob) : List (List Name) := [sts q, q.controls, q.parameters, q.constants]

/-- `_bc_args` (trajectory_mappers.py:125). -/
def bcArgs (q : Prob) : List (List Name) := [sts q, qds q, q.parameters, q.constants]

/-- `simpson(values, t)` (component_compilation.py:46-57). -/
def simpson (rule : List K → List K → K) (values t : List K) : Py K :=
  if values.length ≠ t.length then .error .valueError else .ok (rule values t)

/-- The quadratures at one end: `_q[0, :] if len(_q) > 0 else _q` (component_compilation.py:47-52). -/
def quadRow (row : Arr K → Py (List K)) (qd : Arr K) : Py (List K) := if qd.len > 0 then row qd else .ok []

/-- `compute_cost` (component_compilation.py:46-57).  `zip(_y, _u)` stops at the shorter of the two. -/
def computeCost (rule : List K → List K → K) (I : Interp K) (q : Prob) (t : List K) (y qd u : Arr K) (pr k : List K) : Py K := do
  let y0 ← firstRow y
  let q0 ← quadRow firstRow qd
  let c0 ← lambdify I (bcArgs q) q.costInitial [y0, q0, pr, k]
  let yf ← lastRow y
  let qf ← quadRow lastRow qd
  let cf ← lambdify I (bcArgs q) q.costTerminal [yf, qf, pr, k]
  let path ← (y.rowList.zip u.rowList).mapM fun yu => lambdify I (dynArgs q) q.costPath [yu.1, yu.2, pr, k]
  let s ← simpson rule path t
  .ok (c0 + cf + s)

end Beluga.Rep
