import Verif.Py
import Mathlib.Logic.Function.Basic

/-!
# User functions and their derivatives (custom_functions.py, tables.py)

When an equation contains a user function, sympy differentiates it with `fdiff`, which makes a new function object with a
new name and registers a numerical derivative under that name in the compiler's table of functions.  The compiled
code contains the name.  Strings are lists of characters.
-/

namespace Beluga.UserFun

abbrev Str := List Char

/-- `str(n)` for a number (custom_functions.py:10-126). -/
def dec (n : Nat) : Str := Nat.toDigits 10 n

/-- What one argument adds to the name (custom_functions.py:110-115). -/
def piece (a : Str) (k : Nat) : Str := if k = 0 then [] else if k = 1 then 'd' :: a else 'd' :: (a ++ dec k)

/-- The loop over arguments and orders (custom_functions.py:108-115), without the leading underscore. -/
def post (args : List Str) (order : List Nat) : Str := (List.zipWith piece args order).flatten

/-- `construct_name` (custom_functions.py:104-125). -/
def constructName (base : Str) (args : List Str) (order : List Nat) : Str :=
  let total := order.sum
  if total = 0 then base
  else if total = 1 then 'd' :: (base ++ '_' :: post args order)
  else 'd' :: (dec total ++ (base ++ '_' :: post args order))

/-- What is registered: the user's function itself or a numerical derivative of it
(`gen_num_diff(base_func, order=order, method=deriv_method)`, custom_functions.py:86-89). -/
inductive EvalFunc (F : Type) where
  | base (f : F)
  | numDiff (f : F) (order : List Nat) (method : String)
  deriving DecidableEq

/-- A function object in an expression.  The attribute `base_name` is the *constructed* name
(custom_functions.py:84-85, 51), so `name` serves as both.  `args` are the printed arguments. -/
structure Node (F : Type) where
  name : Str
  func : F
  args : List Str
  order : List Nat
  deriving DecidableEq

/-- `local_compiler.func_locals` (LocalCompiler.py:10, 28-30). -/
abbrev Locals (F : Type) := Str → Option (EvalFunc F)

variable {F : Type}

/-- `CustomFunction(base_name, base_func, args, order=order, deriv_method=method)` (custom_functions.py:77-102);
`arity` is `len(inspect.signature(f).parameters)`.  `jit` tells whether numba compiles the function and its derivatives; if not,
`gen_num_diff` raises (`FinDiff.C37_violated_jit`). -/
def make (arity : F → Nat) (jit : F → Bool) (base : Str) (f : F) (args : List Str) (order : List Nat) (method : String) (L : Locals F) :
    Py (Node F × Locals F) :=
  if args.length ≠ arity f then .error .syntaxError
  else if order.sum ≠ 0 ∧ ¬ jit f then .error .attributeError
  else
    let name := constructName base args order
    let e : EvalFunc F := if order.sum = 0 then .base f else .numDiff f order method
    .ok (⟨name, f, args, order⟩, Function.update L name (some e))

/-- `CustomFunctionGenerator` as made by `FunctionStruct` (custom_functions.py:10-36,
components_structures.py:222-223): `order` is always the default. -/
structure Gen (F : Type) where
  name : Str
  func : F
  method : String := "c_diff"

/-- `generator(*args)` (custom_functions.py:38-40). -/
def Gen.call (arity : F → Nat) (jit : F → Bool) (g : Gen F) (args : List Str) (L : Locals F) : Py (Node F × Locals F) :=
  make arity jit g.name g.func args (List.replicate (arity g.func) 0) g.method L

/-- `fdiff(argindex)` (custom_functions.py:66-73); the index is counted from 0 here.  The differentiation method is not
passed on, so it is the default of `CustomFunction`. -/
def Node.fdiff (arity : F → Nat) (jit : F → Bool) (n : Node F) (i : Nat) (L : Locals F) : Py (Node F × Locals F) :=
  if i < n.args.length then make arity jit n.name n.func n.args (n.order.modify i (· + 1)) "c_diff" L
  else .error .indexError

/-- What happens while a problem is set up: a user function is written down, or sympy differentiates the `k`-th
function object made so far with respect to its `i`-th argument (custom_functions.py:10-126). -/
inductive Act (F : Type) where
  | call (g : Gen F) (args : List Str)
  | diff (k i : Nat)

/-- One action: the objects made so far and the registered functions (custom_functions.py:10-126). -/
def step (arity : F → Nat) (jit : F → Bool) (s : List (Node F) × Locals F) : Act F → Py (List (Node F) × Locals F)
  | .call g args => do
    let (n, L) ← g.call arity jit args s.2
    .ok (s.1 ++ [n], L)
  | .diff k i => do
    let n0 ← Py.get s.1 k
    let (n, L) ← n0.fdiff arity jit i s.2
    .ok (s.1 ++ [n], L)

def run (arity : F → Nat) (jit : F → Bool) (acts : List (Act F)) (L : Locals F) : Py (List (Node F) × Locals F) :=
  acts.foldlM (step arity jit) ([], L)

/-- Letters, digits and underscores, not starting with a digit (ASCII) (custom_functions.py:10-126). -/
def isIdent (s : Str) : Bool :=
  match s with
  | [] => false
  | c :: _ => !c.isDigit && s.all fun c => c.isAlphanum || c == '_'

/-- The function that the compiled code calls for a function object (LocalCompiler.py:33-44).  `sympy.lambdify` prints
the name followed by the arguments.  A name that is not an identifier is read by Python as something else; it fails when it
is compiled or called, with different exceptions, all represented by `NameError`. -/
def Node.called (n : Node F) (L : Locals F) : Py (EvalFunc F) :=
  if isIdent n.name then
    match L n.name with
    | some e => .ok e
    | none => .error .nameError
  else .error .nameError

/-! Tables -/

/-- `SymTable.construct_name` (tables.py:58-69). -/
def tableName (table arg : Str) (k : Nat) : Str :=
  if k = 0 then table
  else if k = 1 then 'd' :: (table ++ '_' :: 'd' :: arg)
  else 'd' :: (dec k ++ (table ++ '_' :: 'd' :: (arg ++ dec k)))

/-- The names registered for applications of tables: `(table, argument, order)` each (tables.py:48-56; `fdiff` at
tables.py:37-41 raises the order by one and keeps table and argument). -/
def tableRun : List (Str × Str × Nat) → (Str → Option (Str × Nat)) → (Str → Option (Str × Nat))
  | [], L => L
  | (t, a, k) :: l, L => tableRun l (Function.update L (tableName t a k) (some (t, k)))

end Beluga.UserFun
