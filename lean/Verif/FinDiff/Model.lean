import Verif.PyLemmas
import Mathlib.Algebra.Field.Basic
import Mathlib.Algebra.BigOperators.Group.List.Basic

/-!
# Numerical derivatives of user functions

`gen_fin_diff_coeff`, `gen_fin_diff` (numeric/numerical_derivatives/finite_diff.py) and `gen_num_diff`
(numeric/numerical_derivatives/__init__.py).

Numbers are elements of a field: no rounding.  `np.zeros((order_deriv + 1, num_pnts, num_pnts))` is a total function of
three indices, initially zero, and the three nested loops are folds that overwrite entries one by one, in the order of the
code.  A successful `njit` only changes speed; whether numba accepts a function is given by `Jit`.  If it does not, the handler
calls `logging.beluga`, which the module `logging` does not have (finite_diff.py:34,77,93).  The loop over coefficients and
steps is a sum.
-/

namespace Beluga.FinDiff

/-- A three-dimensional array (finite_diff.py:109). -/
abbrev Arr3 (K : Type) := Nat → Nat → Nat → K

section
variable {K : Type} [Field K]

/-- `a[m, n, nu] = v` (finite_diff.py:122-126). -/
def put (a : Arr3 K) (m n nu : Nat) (v : K) : Arr3 K :=
  fun m' n' nu' => if m' = m ∧ n' = n ∧ nu' = nu then v else a m' n' nu'

/-- The index `m - 1` along the first axis: `-1` is the last entry, `order_deriv` (finite_diff.py:122, 126). -/
def wrap (order m : Nat) : Nat := if m = 0 then order else m - 1

/-- Body of the inner loop over `m` (finite_diff.py:120-121). -/
def stepOld (g : List K) (order n nu : Nat) (c3 : K) (a : Arr3 K) (m : Nat) : Arr3 K :=
  put a m n nu ((g.getD n 0 * a m (n - 1) nu - (m : K) * a (wrap order m) (n - 1) nu) / c3)

/-- Body of the loop over `nu` (finite_diff.py:117-121); the state is `(coef_array, c2)`. -/
def stepNu (g : List K) (order n : Nat) (s : Arr3 K × K) (nu : Nat) : Arr3 K × K :=
  let c3 := g.getD n 0 - g.getD nu 0
  ((List.range (min n order + 1)).foldl (stepOld g order n nu c3) s.1, s.2 * c3)

/-- Body of the second loop over `m` (finite_diff.py:123-125). -/
def stepNew (g : List K) (order n : Nat) (c1 c2 : K) (a : Arr3 K) (m : Nat) : Arr3 K :=
  put a m n n (c1 / c2 * ((m : K) * a (wrap order m) (n - 1) (n - 1) - g.getD (n - 1) 0 * a m (n - 1) (n - 1)))

/-- Body of the loop over `n` (finite_diff.py:115-126); the state is `(coef_array, c1)`. -/
def stepN (g : List K) (order : Nat) (s : Arr3 K × K) (n : Nat) : Arr3 K × K :=
  let r := (List.range n).foldl (stepNu g order n) (s.1, 1)
  ((List.range (min n order + 1)).foldl (stepNew g order n s.2 r.2) r.1, r.2)

/-- `gen_fin_diff_coeff` (finite_diff.py:105-128). -/
def coeffs (order : Nat) (g : List K) : Py (List K) :=
  if g.length ≤ order then .error .runtimeWarning
  else
    let a := ((List.range' 1 (g.length - 1)).foldl (stepN g order) (put (fun _ _ _ => 0) 0 0 0 1, 1)).1
    .ok ((List.range g.length).map fun nu => a order (g.length - 1) nu)

/-- The `method` argument of `gen_fin_diff` (finite_diff.py:42-52). -/
inductive Scheme where
  | forward | backward | central | other
  deriving DecidableEq

/-- The grid for one argument (finite_diff.py:41-52): `order + acc_order` points, one more for a central scheme with an
even number. -/
def grid (s : Scheme) (num : Nat) : Py (List K) :=
  match s with
  | .forward => .ok ((List.range num).map fun i : Nat => (i : K))
  | .backward => .ok ((List.range num).map fun i : Nat => -((num : K) - 1) + (i : K))
  | .central =>
    let num := if num % 2 = 0 then num + 1 else num
    .ok ((List.range num).map fun i : Nat => -((num : K) - 1) / 2 + (i : K))
  | .other => .error .notImplementedError

section
variable [DecidableEq K]

/-- The coefficients and steps for one argument (finite_diff.py:39-57); points with coefficient zero are dropped
(`np.where`). -/
def stencil (s : Scheme) (acc : Nat) (step : K) (order : Nat) : Py (List (K × K)) := do
  let g ← grid s (order + acc)
  let c ← coeffs order g
  .ok (((c.zip g).filter fun p => p.1 ≠ 0).map fun p => (p.1, step * p.2))

end

/-- `itertools.product(*ls)` (finite_diff.py:59-60). -/
def product {α : Type} : List (List α) → List (List α)
  | [] => [[]]
  | l :: ls => l.flatMap fun a => (product ls).map (a :: ·)

/-- `arg_array + np.array(step)`: a single step is added to every argument (broadcasting); other lengths have to
agree (finite_diff.py:86, 99). -/
def addStep (args step : List K) : Py (List K) :=
  if step.length = args.length then .ok (List.zipWith (· + ·) args step)
  else match step with
    | [h] => .ok (args.map (· + h))
    | _ => .error .valueError

/-- The sum `diff += coeff * func(*(arg_array + step))` (finite_diff.py:68-72, 95-100). -/
def accumulate (f : List K → K) (args : List K) : List (K × List K) → Py K
  | [] => .ok 0
  | (c, s) :: rest => do
    let x ← addStep args s
    let r ← accumulate f args rest
    .ok (c * f x + r)

variable [DecidableEq K]

/-- Whether numba compiles the user's function (or has compiled it already) and the derivative that `gen_fin_diff` writes.  numba
cannot make a tuple of an array (finite_diff.py:87), so `derived` is false for functions of several arguments. -/
structure Jit where
  user : Bool
  derived : Bool
  deriving DecidableEq

/-- `gen_fin_diff(func, deriv_order, step_size, acc_order, method)` for a function of `argLen` scalars
(finite_diff.py:9-102), applied to `args`. -/
def finDiff (j : Jit) (f : List K → K) (argLen : Nat) (order : List Nat) (step : K) (acc : Nat) (s : Scheme) (args : List K) :
    Py K := do
  if order.length > argLen then .error .syntaxError
  if ¬ j.user then .error .attributeError
  let st ← order.mapM (stencil s acc step)
  if argLen = 1 then
    match st with
    | [] => .error .indexError
    | p :: _ =>
      if ¬ j.derived then .error .attributeError
      else match args with
      | [x] => .ok ((p.map fun q => q.1 * f [x + q.2]).sum / step ^ order.sum)
      | _ => .error .typeError
  else if ¬ j.derived then .error .attributeError
  else
    let cp := (product (st.map fun l => l.map Prod.fst)).map List.prod
    let sp := product (st.map fun l => l.map Prod.snd)
    let d ← accumulate f args (cp.zip sp)
    .ok (d / step ^ order.sum)

/-- The `method` argument of `gen_num_diff`, except for the complex-step method (numerical_derivatives/__init__.py:5-22). -/
inductive Method where
  | f_diff | b_diff | c_diff | other
  deriving DecidableEq

/-- `gen_num_diff(func, order, method, step_size)` (__init__.py:5-23), applied to `args`. -/
def numDiff (j : Jit) (f : List K → K) (argLen : Nat) (order : List Nat) (m : Method) (step : K) (args : List K) : Py K :=
  match order.max? with
  | none => .error .valueError
  | some 0 => .ok (f args)
  | some _ =>
    let h := step * 10 ^ order.sum
    match m with
    | .f_diff => finDiff j f argLen order h 1 .forward args
    | .b_diff => finDiff j f argLen order h 1 .backward args
    | .c_diff => finDiff j f argLen order h 1 .central args
    | .other => .error .notImplementedError

end

end Beluga.FinDiff
