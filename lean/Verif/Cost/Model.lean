import Mathlib.Algebra.Group.Basic
import Verif.Py

/-!
# The cost of a problem and its units

`CostStruct` (components_structures.py:155-198) and the declarations of costs (symbolic_problem.py:185-204).

Simplifications: expressions are of an arbitrary type `E`; units are elements of a commutative group `G`.  sympy compares units
after bringing products of powers into a normal form, which decides equality in the free commutative group on
the unit symbols.
-/

namespace Beluga.CostUnits

/-- `CostStruct`: `none` is Python's `None` (components_structures.py:155-198). -/
structure Cost (E G : Type) where
  initial : Option E
  path : Option E
  terminal : Option E
  units : Option G := none
  pathUnits : Option G := none

/-- The part of a `Problem` that matters here (symbolic_problem.py:201-203). -/
structure Prob (E G : Type) where
  cost : Cost E G
  sympified : Bool := false

/-- `CostStruct()` in `Problem.__init__` (symbolic_problem.py:40, components_structures.py:156-163): all parts are zero. -/
def Prob.new {E G : Type} (zero : E) : Prob E G := { cost := { initial := some zero, path := some zero, terminal := some zero } }

/-- Declarations (symbolic_problem.py:185-204). -/
inductive Decl (E G : Type) where
  | initialCost (e : E) (u : G)
  | pathCost (e : E) (u : G)
  | terminalCost (e : E) (u : G)
  | setCost (initial path terminal : Option E) (u : Option G)

/-- The effect of a declaration; `set_cost` makes a new `CostStruct` without `path_units` (symbolic_problem.py:201-204). -/
def Decl.run {E G : Type} (p : Prob E G) : Decl E G → Prob E G
  | .initialCost e u => { p with cost := { p.cost with initial := some e, units := some u } }
  | .pathCost e u => { p with cost := { p.cost with path := some e, pathUnits := some u } }
  | .terminalCost e u => { p with cost := { p.cost with terminal := some e, units := some u } }
  | .setCost i m t u => { p with cost := { initial := i, path := m, terminal := t, units := u } }

/-- `check_path_units` (components_structures.py:181-198): the new object, and the exception if one is raised. -/
def Cost.check {E G : Type} [CommGroup G] [DecidableEq G] (ind : G) (c : Cost E G) : Cost E G × Option PyErr :=
  match c.units, c.pathUnits with
  | none, none => (c, none)
  | none, some m => ({ c with units := some (m * ind) }, none)
  | some u, none => ({ c with pathUnits := some (u / ind) }, none)
  | some u, some m =>
    if u ≠ m * ind then ({ c with pathUnits := some (u / ind) }, some .runtimeWarning) else (c, none)

/-- `sympify_self` (symbolic_problem.py:260-305) for a problem with states: `sympified` is set before the check. -/
def Prob.sympify {E G : Type} [CommGroup G] [DecidableEq G] (ind : G) (p : Prob E G) : Prob E G × Option PyErr :=
  let r := p.cost.check ind
  ({ cost := r.1, sympified := true }, r.2)

/-- What `Dualize` does with the cost (mapping_functions.py:316-343, 371-389), for units `nu0`, `nuf` of the initial and
terminal constraints, `x` of the states and `ind` of the independent variable: the units of the multipliers, of the
Hamiltonian and of the costates, in the order in which they are computed.  `None / units` and `None + expr` raise `TypeError`; a path
cost `None` has no `free_symbols`, a boundary cost `None` has no `diff`. -/
def dualUnits {E G : Type} [CommGroup G] (nu0 nuf x : List G) (ind : G) (p : Prob E G) : Except PyErr (List G × List G × G × List G) :=
  if !p.sympified then .error .valueError
  else
    match p.cost.units with
    | none => .error .typeError
    | some u =>
      if nu0 ≠ [] ∧ p.cost.initial.isNone then .error .typeError
      else if nuf ≠ [] ∧ p.cost.terminal.isNone then .error .typeError
      else if p.cost.path.isNone then .error .attributeError
      else if x ≠ [] ∧ p.cost.initial.isNone then .error .attributeError
      else if p.cost.terminal.isNone then .error .attributeError
      else .ok (nu0.map (u / ·), nuf.map (u / ·), u / ind, x.map (u / ·))

end Beluga.CostUnits
