import Verif.Py
import Verif.Symbolic.Expr

/-!
# Model of `beluga/symbolic/differential_geometry/differential_geometry.py`

`make_standard_symplectic_form` and `make_hamiltonian_vector_field` on lists of expressions are in
`Verif.Symbolic.Problem`; here are the check of a form, the exterior derivative and the Poisson bracket.
-/

namespace Beluga.Geo

open Beluga.Sym Beluga.Sym.Expr

/-- The argument of `is_symplectic`: `None`, an array that is not two-dimensional, or a matrix.  Entries are elements of
any type with zero, negation and decidable equality (for sympy: expressions in normal form)
(differential_geometry.py:118-145). -/
inductive Form (R : Type) where
  | none
  | other (rank : Nat)
  | mat (rows cols : Nat) (e : Nat → Nat → R)

/-- `is_symplectic` (differential_geometry.py:118-145). -/
def isSymplectic {R : Type} [Zero R] [Neg R] [DecidableEq R] : Form R → Bool
  | .none => false
  | .other _ => false
  | .mat rows cols e =>
    if rows % 2 ≠ 0 ∨ rows ≠ cols then false
    else (List.range rows).foldl (fun out i => (List.range cols).foldl (fun out j =>
      let out := if i = j then (if e i j ≠ 0 then false else out) else out
      if i ≠ j then (if e i j ≠ -(e j i) then false else out) else out) out) true

/-- `make_standard_symplectic_form` (differential_geometry.py:74-95) for `n` states and `m` costates. -/
def standardForm (R : Type) [Zero R] [One R] [Neg R] (n m : Nat) : Py (Form R) :=
  if n ≠ m then .error .valueError
  else .ok (.mat (2 * n) (2 * n) fun i j => if i = j + n then -1 else if j = i + n then 1 else 0)

/-- `exterior_derivative` of an expression (differential_geometry.py:23-28). -/
def exteriorZero (f : Expr) (basis : List Name) : List Expr := basis.map fun b => f.diff b

/-- `df[i, j] += e` for an array with `rows` rows and `cols` columns (differential_geometry.py:11-50). -/
def addAt (rows cols i j : Nat) (e : Expr) (df : Nat → Nat → Expr) : Py (Nat → Nat → Expr) :=
  if i < rows ∧ j < cols then .ok (fun a b => if a = i ∧ b = j then df a b + e else df a b) else .error .indexError

/-- The body of the double loop (differential_geometry.py:36-44). -/
def exteriorStep (f : List Expr) (basis : List Name) (df : Nat → Nat → Expr) (i j : Nat) : Py (Nat → Nat → Expr) := do
  let df := if i = j then (fun a b => if a = i ∧ b = j then 0 else df a b) else df
  if i < j then do
    let fj ← getIdx f j
    let fi ← getIdx f i
    let bi ← getIdx basis i
    let df ← addAt basis.length f.length i j (fj.diff bi) df
    let bj ← getIdx basis j
    let df ← addAt basis.length f.length i j (-(fi.diff bj)) df
    let df ← addAt basis.length f.length j i (-(fj.diff bi)) df
    addAt basis.length f.length j i (fi.diff bj) df
  else .ok df
where
  /-- `l[i]`. -/
  getIdx {α : Type} (l : List α) (i : Nat) : Py α :=
    match l[i]? with
    | some a => .ok a
    | none => .error .indexError

/-- `exterior_derivative` of a one-dimensional array (differential_geometry.py:31-44); for two dimensions and more it raises
`NotImplementedError` (47-48). -/
def exteriorOne (f : List Expr) (basis : List Name) : Py (Nat → Nat → Expr) :=
  (List.range basis.length).foldlM (fun df i => (List.range f.length).foldlM (fun df j => exteriorStep f basis df i j) df)
    fun _ _ => 0

/-- `pb(None, g, prob)` (differential_geometry.py:148-165) for the form with entries `omega` over the basis; without
dependent variables `total_derivative` (98-115) is the partial derivative. -/
def poisson (omega : Nat → Nat → Expr) (g : Expr) (basis : List Name) : List Expr :=
  (List.range basis.length).map fun i => (List.range basis.length).foldl
    (fun h j => h + omega i j * g.diff (basis.getD j "")) 0

end Beluga.Geo
