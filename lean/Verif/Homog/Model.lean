import Verif.Symbolic.Problem

/-!
# The units that the functors declare

`Beluga.Sym.Prob` leaves units out.  This file adds them: a table with the units of all named components, of the cost,
of the constraints and of the Hamiltonian, and what each functor does to it.
-/

namespace Beluga.Homog

open Beluga.Sym Beluga.Sym.Expr

/-- The `units` attributes of a problem.  `decl` lists the named components with their units
(components_structures.py:52-71), the other fields are `prob.cost.units`, the `units` of the constraints in the three lists, and
`prob.hamiltonian.units`. -/
structure Tab where
  decl : List (Name × Expr)
  cost : Expr
  initial : List Expr
  path : List Expr
  terminal : List Expr
  ham : Expr := 1

/-- `component.units` for the component with the given name (components_structures.py:41-130). -/
def Tab.of (T : Tab) (n : Name) : Expr := (T.decl.lookup n).getD 1

/-- `MomentumShift` (mapping_functions.py:152-163): the time keeps its units as a state, and the new independent variable
gets the same ones. -/
def uShift (p : Prob) (T : Tab) : Tab := { T with decl := T.decl ++ [("_" ++ p.ind, T.of p.ind)] }

/-- `EpsTrig` (mapping_functions.py:193-208): the constraint is removed, the new control is dimensionless. -/
def uEps (p : Prob) (T : Tab) : Tab :=
  match p.path.findIdx? fun c => c.method = .epstrig with
  | none => T
  | some i =>
    match p.path[i]? with
    | some ⟨.sym u, _, _, _, _⟩ => { T with path := T.path.eraseIdx i, decl := T.decl ++ [("_" ++ u ++ "_trig", 1)] }
    | _ => T

/-- `UTM` (mapping_functions.py:276-286): the constraint is removed. -/
def uUtm (p : Prob) (T : Tab) : Tab :=
  match utmFind p with
  | some (0, i) => { T with initial := T.initial.eraseIdx i }
  | some (1, i) => { T with path := T.path.eraseIdx i }
  | some (_, i) => { T with terminal := T.terminal.eraseIdx i }
  | none => T

/-- `Dualize` (mapping_functions.py:315-391): multipliers have the units cost / constraint, the Hamiltonian cost / time, costates
cost / state; the new conditions have the units of the costate or of the Hamiltonian. -/
def uDualize (p : Prob) (T : Tab) : Tab :=
  let lams := (p.states.map Dyn.name ++ p.parameters).map fun n => (lamName n, T.cost / T.of n)
  { T with
    decl := T.decl ++ (nuNames "_nu_0_" p.initial.length).zip (T.initial.map fun u => T.cost / u) ++
      (nuNames "_nu_f_" p.terminal.length).zip (T.terminal.map fun u => T.cost / u) ++ lams
    initial := T.initial ++ lams.map Prod.snd
    terminal := T.terminal ++ lams.map Prod.snd ++ [T.cost / T.of p.ind]
    ham := T.cost / T.of p.ind }

/-- `DifferentialControlLaw` (mapping_functions.py:448-501): controls keep their units as states; `dH/du` has the units
Hamiltonian / control; in the symplectic method every control gets a costate with the units cost / control and a condition with the same
units. -/
def uDifferential (m : Method) (p : Prob) (T : Tab) : Tab :=
  let terminal := T.terminal ++ p.controls.map fun u => T.ham / T.of u
  match m with
  | .diffyg =>
    let lams := p.controls.map fun u => (lamName u, T.cost / T.of u)
    { T with decl := T.decl ++ lams, terminal := terminal, initial := T.initial ++ lams.map Prod.snd }
  | _ => { T with terminal := terminal }

/-- `NormalizeTime` (mapping_functions.py:696-714): the duration has the units of time, the new independent variable none. -/
def uNormalize (p : Prob) (T : Tab) : Tab :=
  { T with decl := T.decl ++ [("_delta" ++ p.ind, T.of p.ind), ("_tau", 1)] }

/-- What a functor does to the units (mapping_functions.py:121-760). -/
def Step.units : Step → Prob → Tab → Tab
  | .momentumShift => uShift
  | .epsTrig => uEps
  | .utm => uUtm
  | .dualize _ => uDualize
  | .differential m => uDifferential m
  | .normalizeTime => uNormalize
  | .rashs | .algebraic | .squash | .jacobians => fun _ T => T

/-- Apply functors to a problem and its units (mapping_functions.py:103-107). -/
def runU (S : Sympy) : List Step → Prob × Tab → Py (Prob × Tab)
  | [], x => .ok x
  | s :: ss, x => do
    let p ← s.run S x.1
    runU S ss (p, Step.units s x.1 x.2)

/-- `make_indirect_method(prob)(prob)` with units (mapping_functions.py:856-938). -/
def indirectU (S : Sympy) (o : Opts) (x : Prob × Tab) : Py (Prob × Tab) := do
  let p ← preprocess x.1
  let steps ← indirectSteps o p
  runU S steps (p, x.2)

end Beluga.Homog
