import Mathlib.Algebra.Order.Field.Basic
import Mathlib.Data.List.Basic

/-!
# Python and numpy primitives used by several topics

Python exceptions are values of `PyErr`; a Python function that may raise is a function into
`Except PyErr`.  Floats are elements of a linearly ordered field `K` (see DESIGN.md).
-/

namespace Beluga

/-- The Python exception classes raised by the modelled code (only the class is kept, not the text). -/
inductive PyErr where
  | valueError
  | runtimeError
  | runtimeWarning
  | stopIteration
  | indexError
  | keyError
  | typeError
  | attributeError
  | notImplementedError
  | nameError
  | syntaxError
  | unboundLocalError
  | zeroDivisionError
  | osError
  | linAlgError
  deriving DecidableEq, Repr

/-- A Python function that may raise. -/
abbrev Py (α : Type _) := Except PyErr α

namespace Py

/-- `l.index(x)`: position of the first occurrence, `ValueError` if there is none. -/
def index {α : Type _} [DecidableEq α] (l : List α) (x : α) : Py Nat :=
  match l.findIdx? (· = x) with
  | some i => .ok i
  | none => .error .valueError

/-- `l[i]` for a non-negative `i`: `IndexError` past the end. -/
def get {α : Type _} (l : List α) (i : Nat) : Py α :=
  match l[i]? with
  | some x => .ok x
  | none => .error .indexError

/-- `l[i] = x` for a non-negative `i`: `IndexError` past the end. -/
def set {α : Type _} (l : List α) (i : Nat) (x : α) : Py (List α) :=
  if i < l.length then .ok (l.set i x) else .error .indexError

end Py

/-- `numpy.linspace(a, b, n)` (endpoint included).  numpy computes `arange(n) * ((b-a)/(n-1)) + a` and then
overwrites the last entry by `b` when `n > 1`; for `n = 1` the result is `[a]`, for `n = 0` it is empty. -/
def linspace {K : Type _} [Field K] (a b : K) (n : Nat) : List K :=
  (List.range n).map fun i : Nat =>
    if 1 < n ∧ i + 1 = n then b else a + (i : K) * ((b - a) / ((n - 1 : Nat) : K))

/-- `numpy.linspace(a, b, n, endpoint=False)`. -/
def linspaceOpen {K : Type _} [Field K] (a b : K) (n : Nat) : List K :=
  (List.range n).map fun i : Nat => a + (i : K) * ((b - a) / (n : K))

/-- Base-10 logarithm and exponential, as used by `np.log10` / `np.logspace`.  They are kept as a parameter so
that the state machines stay computable; `Verif.Continuation.Props` instantiates them with the real functions. -/
structure LogOps (K : Type _) where
  log10 : K → K
  pow10 : K → K

/-- `numpy.logspace(a, b, n)` is `10 ** linspace(a, b, n)`. -/
def logspace {K : Type _} [Field K] (L : LogOps K) (a b : K) (n : Nat) : List K :=
  (linspace a b n).map L.pow10

/-- The fold of `numpy.argmin`: `best` is the value at position `i`, `pos` the position of the next element. -/
def argminGo {K : Type _} [LinearOrder K] (best : K) (i pos : Nat) : List K → Nat
  | [] => i
  | x :: xs => if x < best then argminGo x pos (pos + 1) xs else argminGo best i (pos + 1) xs

/-- `numpy.argmin(l)`: position of the first minimum, `ValueError` for an empty sequence. -/
def argmin {K : Type _} [LinearOrder K] : List K → Py Nat
  | [] => .error .valueError
  | x :: xs => .ok (argminGo x 0 1 xs)

/-- `numpy.insert(l, i, xs)` for `0 ≤ i ≤ len(l)`. -/
def npInsert {α : Type _} (l : List α) (i : Nat) (xs : List α) : List α :=
  l.take i ++ xs ++ l.drop i

end Beluga
