import Verif.PyLemmas
import Mathlib.Algebra.Order.Field.Basic
import Mathlib.Data.Matrix.Mul

/-!
# Spline tables

`TableSpline1D` (symbolic/special_functions/tables.py:72-147).

Numbers are exact.  `np.linalg.solve` is a parameter of the model.  `data_x` and `data_y` have the same length and
`data_x` is sorted, so that `np.searchsorted(data_x, x, side='right')` is the number of entries that are at most `x`.
Index errors are those of Python; the compiled functions of numba do not check bounds and read whatever is there.
-/

namespace Beluga.Spline

/-- `np.linalg.solve` (tables.py:85). -/
abbrev Solver (K : Type) := (m : Nat) → (Fin m → Fin m → K) → (Fin m → K) → Py (Fin m → K)

section
variable {K : Type} [Field K]

/-- `data_x[1:] - data_x[:-1]` (tables.py:79). -/
def h (x : List K) (i : Nat) : K := x.getD (i + 1) 0 - x.getD i 0

/-- `(data_y[1:] - data_y[:-1])/h` (tables.py:80). -/
def b (x y : List K) (i : Nat) : K := (y.getD (i + 1) 0 - y.getD i 0) / h x i

/-- `2*(h[:-1] + h[1:])` (tables.py:81). -/
def v (x : List K) (i : Nat) : K := 2 * (h x i + h x (i + 1))

/-- `6*(b[1:] - b[:-1])` (tables.py:82). -/
def u (x y : List K) (i : Nat) : K := 6 * (b x y (i + 1) - b x y i)

/-- `np.diag(v) + np.diag(h[1:-1], k=1) + np.diag(h[1:-1], k=-1)` (tables.py:84). -/
def matCoeff (x : List K) (m : Nat) (i j : Fin m) : K :=
  (if (i : Nat) = j then v x i else 0) + (if (j : Nat) = i + 1 then h x (i + 1) else 0) +
    (if (i : Nat) = j + 1 then h x (j + 1) else 0)

/-- A table after construction: the abscissae and the rows of `coeff` (tables.py:73-91). -/
structure Table (K : Type) where
  dataX : List K
  coeff : List (K × K × K × K)

/-- `np.concatenate((np.array([0]), z, np.array([0])))` (tables.py:86). -/
def pad {m : Nat} (z : Fin m → K) (i : Nat) : K :=
  if i = 0 then 0 else if hi : i - 1 < m then z ⟨i - 1, hi⟩ else 0

/-- Row `i` of `coeff` (tables.py:88-89). -/
def row (x y : List K) (z : Nat → K) (i : Nat) : K × K × K × K :=
  (z (i + 1) / (6 * h x i), z i / (6 * h x i), y.getD (i + 1) 0 / h x i - z (i + 1) * h x i / 6,
    y.getD i 0 / h x i - z i * h x i / 6)

/-- `TableSpline1D.__init__` (tables.py:73-91).  With fewer than two points `h[0]` does not exist. -/
def make (solve : Solver K) (x y : List K) : Py (Table K) := do
  if x.length < 2 then .error .indexError
  let m := x.length - 2
  let z ← solve m (matCoeff x m) fun i => u x y i
  .ok ⟨x, (List.range (m + 1)).map (row x y (pad z))⟩

/-- `a[i]` with an index that may be `-1` (tables.py:109-111). -/
def at' {α : Type} (a : List α) (i : Int) : Py α :=
  match (if i < 0 then a[a.length - 1]? else a[i.toNat]?) with
  | some r => .ok r
  | none => .error .indexError

variable [LinearOrder K]

/-- `np.searchsorted(data_x, x, side='right')` for a sorted array (tables.py:108, 116, 124, 132). -/
def searchRight (x : List K) (t : K) : Nat := (x.filter (· ≤ t)).length

/-- The functions made by `form_eval_function` (tables.py:102-138). -/
def interp (T : Table K) (order : Nat) (t : K) : Py K :=
  match order with
  | 0 => do
    let i := searchRight T.dataX t
    let c ← at' T.coeff ((i : Int) - 1)
    let t0 ← at' T.dataX ((i : Int) - 1)
    let t1 ← at' T.dataX i
    .ok (c.1 * (t - t0) ^ 3 + c.2.1 * (t1 - t) ^ 3 + c.2.2.1 * (t - t0) + c.2.2.2 * (t1 - t))
  | 1 => do
    let i := searchRight T.dataX t
    let c ← at' T.coeff ((i : Int) - 1)
    let t0 ← at' T.dataX ((i : Int) - 1)
    let t1 ← at' T.dataX i
    .ok (3 * (c.1 * (t - t0) ^ 2 - c.2.1 * (t1 - t) ^ 2) + c.2.2.1 - c.2.2.2)
  | 2 => do
    let i := searchRight T.dataX t
    let c ← at' T.coeff ((i : Int) - 1)
    let t0 ← at' T.dataX ((i : Int) - 1)
    let t1 ← at' T.dataX i
    .ok (6 * (c.1 * (t - t0) + c.2.1 * (t1 - t)))
  | 3 => do
    let i := searchRight T.dataX t
    let c ← at' T.coeff ((i : Int) - 1)
    .ok (6 * (c.1 - c.2.1))
  | _ => .ok 0

end

end Beluga.Spline
