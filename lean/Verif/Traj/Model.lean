import Verif.PyLemmas
import Mathlib.Algebra.Order.Field.Basic
import Mathlib.Algebra.Order.Floor.Ring
import Mathlib.Data.List.Sort

/-!
# Trajectories and quadratures along them

`Trajectory.__call__` (numeric/data_classes/Trajectory.py:64-156), `reconstruct` and the time grid of `integrate_quads`
(numeric/ivp_solvers/ivpsol.py:107-192).

Numbers are exact.  `scipy.interpolate.interp1d(t, y, kind='linear')`, the default, is modelled as documented: the data is
sorted by time (a stable sort), a time outside of the data raises `ValueError`, and in between neighbours are combined
linearly.  `Trajectory.__call__` is modelled for a single time (`t.shape == ()`).  `scipy.integrate.simpson` is a parameter.
-/

namespace Beluga.Traj

/-- A NumPy array of one or two dimensions (Trajectory.py:27-56). -/
inductive Arr (K : Type) where
  | vec (l : List K)
  | mat (cols : Nat) (rows : List (List K))

/-- The parts of a trajectory that can be interpolated (Trajectory.py:27-56). -/
structure Curve (K : Type) where
  t : List K
  y : Arr K
  q : Arr K
  u : Arr K

section
variable {K : Type} [Field K] [LinearOrder K]

/-- `np.argsort(t, kind="mergesort")`, a stable sort (Trajectory.py:64-156). -/
def argsort (ts : List K) : List Nat :=
  (List.range ts.length).insertionSort fun i j => ts.getD i 0 ≤ ts.getD j 0

/-- `interp1d(t, y)(x)` for a number `x`.  `i` is `searchsorted(t, x)`, clipped to `[1, n - 1]` (Trajectory.py:64-156). -/
def interp1d (ts ys : List K) (x : K) : Py K :=
  if ts.length ≠ ys.length then .error .valueError
  else
    let o := argsort ts
    let xs := o.map fun i => ts.getD i 0
    let vs := o.map fun i => ys.getD i 0
    if x < xs.getD 0 0 ∨ xs.getD (xs.length - 1) 0 < x then .error .valueError
    else
      let i := min (max (xs.filter (· < x)).length 1) (xs.length - 1)
      let xlo := xs.getD (i - 1) 0
      let xhi := xs.getD i 0
      let ylo := vs.getD (i - 1) 0
      let yhi := vs.getD i 0
      .ok ((yhi - ylo) / (xhi - xlo) * (x - xlo) + ylo)

/-- `a.T[j]` (Trajectory.py:64-156). -/
def col (rows : List (List K)) (j : Nat) : List K := rows.map fun r => r.getD j 0

/-- The block for the states (Trajectory.py:84-89, 112-127).  A one-dimensional array is one component, even if empty. -/
def atStates (ts : List K) (a : Arr K) (x : K) : Py (List K) :=
  match a with
  | .vec l => do .ok [← interp1d ts l x]
  | .mat c rows => (List.range c).mapM fun j => interp1d ts (col rows j) x

/-- The blocks for quadratures and controls (Trajectory.py:91-110, 129-154): an empty one-dimensional array has no
components. -/
def atOthers (ts : List K) (a : Arr K) (x : K) : Py (List K) :=
  match a with
  | .vec [] => .ok []
  | .vec l => do .ok [← interp1d ts l x]
  | .mat c rows => (List.range c).mapM fun j => interp1d ts (col rows j) x

/-- `Trajectory.__call__` at a single time (Trajectory.py:64-156). -/
def call (g : Curve K) (x : K) : Py (List K × List K × List K) :=
  if g.t.length = 0 then .ok ([], [], [])
  else do
    let y ← atStates g.t g.y x
    let q ← atOthers g.t g.q x
    let u ← atOthers g.t g.u x
    .ok (y, q, u)

/-- `simpson(values, x=times)` of one component (ivpsol.py:107-192). -/
abbrev Simpson (K : Type) := List K → List K → K

/-- `reconstruct(quadfun, gamma, q0, ...)` (ivpsol.py:107-138): the rows of `gamma.q`.  `quadfun` already has the remaining
arguments; `nq` is the number of its components. -/
def reconstruct (simp : Simpson K) (quad : List K → Py (List K)) (g : Curve K) (q0 : List K) : Py (List (List K)) := do
  let dq ← g.t.mapM fun time => do
    let p ← call g time
    quad p.1
  let rows := (List.replicate q0.length 0) :: (List.range (g.t.length - 1)).map fun ii =>
    (List.range q0.length).map fun j => simp (col (dq.take (ii + 2)) j) (g.t.take (ii + 2))
  .ok (rows.map fun r => List.zipWith (· + ·) r q0)

/-- `Propagator.__call__` with `variable_step=False` (ivpsol.py:87-89): the times the solution is asked for.
`np.arange(a, b, h)` has `⌈(b - a) / h⌉` entries (none if that is negative) and `T[-1]` of an empty array is an
`IndexError`. -/
def fixedGrid [FloorRing K] (a b h : K) : Py (List K) :=
  let T := (List.range ⌈(b - a) / h⌉.toNat).map fun i : Nat => a + (i : K) * h
  match T.getLast? with
  | none => .error .indexError
  | some l => .ok (if l ≠ b then T ++ [b] else T)

variable [FloorRing K]

/-- `np.interp(x, t, np.arange(0, len(t)))` for increasing `t` (ivpsol.py:107-192). -/
def interpIndex (ts : List K) (x : K) : K :=
  let n := ts.length
  let c := (ts.filter (· ≤ x)).length
  if c = 0 then 0
  else if c = n then ((n - 1 : Nat) : K)
  else
    let j := c - 1
    ((j + 1 : Nat) - (j : Nat) : K) / (ts.getD (j + 1) 0 - ts.getD j 0) * (x - ts.getD j 0) + (j : K)

/-- The grid of `integrate_quads` (ivpsol.py:157-177), the interval being `[a, b]`.  The plain `Exception` for an interval
that is out of bounds is a `runtimeError` here.  `gamma.t[indf-1]` with `indf = 0` is the last time. -/
def quadGrid (ts : List K) (a b : K) : Py (List K) :=
  match ts with
  | [] => .error .indexError
  | t0 :: rest =>
    if a < t0 then .error .runtimeError
    else if (t0 :: rest).getD rest.length 0 < b then .error .runtimeError
    else
      let ind0 := ⌈interpIndex (t0 :: rest) a⌉.toNat
      let indf := ⌈interpIndex (t0 :: rest) b⌉.toNat
      let head := if a ≠ (t0 :: rest).getD ind0 0 then [a] else []
      let mid := ((t0 :: rest).take indf).drop ind0
      let tl := if b ≠ (t0 :: rest).getD (if indf = 0 then rest.length else indf - 1) 0 then [b] else []
      .ok (head ++ mid ++ tl)

/-- `integrate_quads(quadfun, tspan, gamma, ...)` (ivpsol.py:141-192).  `t_interp[0]` of an empty grid is an `IndexError`;
`nq` is the number of components of `quadfun`. -/
def integrateQuads (simp : Simpson K) (nq : Nat) (quad : K → List K → Py (List K)) (a b : K) (g : Curve K) :
    Py (List K) := do
  let grid ← quadGrid g.t a b
  match grid with
  | [] => .error .indexError
  | x0 :: _ => do
    let p0 ← call g x0
    let dq ← grid.mapM fun time => do
      let p ← call g time
      quad time p.1
    let qf := (List.range nq).map fun j => simp (col dq j) grid
    .ok (if p0.2.1.length = 0 then qf else List.zipWith (· + ·) qf p0.2.1)

end

end Beluga.Traj
