import Verif.Py

/-!
# Declaring a problem: `Problem` (symbolic/data_classes/symbolic_problem.py) and its name table

`LocalCompiler.sym_locals` (LocalCompiler.py:8-21) is the dictionary of used names.  Every `NamedStruct` enters its name
there when it is constructed (components_structures.py:41-49); only the keys matter here.
-/

namespace Beluga.Build

abbrev Name := String

/-- The lists of `Problem` that hold named components (symbolic_problem.py:25-55). -/
inductive Kind where
  | state | costate | parameter | coparameter | control | constraintParameter | constant | quantity | function | table
  | switch | quad | constantOfMotion | unit
  deriving DecidableEq, Repr

/-- The part of a `Problem` that declarations change.  `comps` lists the components of all kinds in order of declaration
(symbolic_problem.py:12-72). -/
structure Builder where
  table : List Name
  ind : Name
  comps : List (Kind × Name)
  deriving DecidableEq, Repr

/-- `Problem.__init__` (symbolic_problem.py:12-70): the default independent variable is `_t`. -/
def init : Builder := ⟨["_t"], "_t", []⟩

/-- A declaration (symbolic_problem.py:88-209). -/
inductive Call where
  /-- `independent(name, units)` (86-89). -/
  | independent (n : Name)
  /-- The methods that check the name and append a component: `state`, `costate`, `parameter`, `coparameter`, `control`,
  `quantity`, `custom_function`, `switch`, `quad`, `constant_of_motion` (91-118, 152-198). -/
  | declare (k : Kind) (n : Name)
  /-- `constraint_parameter(name, units)` (142-144). -/
  | constraintParameter (n : Name)
  /-- `constant(name, default_value, units)` (146-149); `ok` says whether `float(default_value)` succeeds. -/
  | constant (n : Name) (ok : Bool)
  /-- `table(name, kind, ...)` (163-168); `ok` says whether kind and data are valid. -/
  | table (n : Name) (ok : Bool)
  /-- `scale(**kwargs)` (219-223): the keys in order. -/
  | scale (ns : List Name)
  /-- Constraints, costs and symmetries, which have no name (120-140, 184-186, 200-217). -/
  | unnamed
  deriving DecidableEq, Repr

/-- `sym_locals[name] = ...` (components_structures.py:41-49, LocalCompiler.py:21-23). -/
def Builder.register (b : Builder) (n : Name) : Builder := { b with table := if n ∈ b.table then b.table else b.table ++ [n] }

/-- `self.<list>.append(...)` after the component has been constructed (symbolic_problem.py:88-209). -/
def Builder.add (b : Builder) (k : Kind) (n : Name) : Builder := { b.register n with comps := b.comps ++ [(k, n)] }

/-- The loop of `scale` (symbolic_problem.py:205-209). -/
def scaleLoop : List Name → Builder → Builder × Option PyErr
  | [], b => (b, none)
  | n :: ns, b => if n ∈ b.table then (b, some .runtimeWarning) else scaleLoop ns (b.add .unit n)

/-- A declaration: the problem afterwards, and the exception if one is raised.
`check_for_duplicate` (319-321) raises `RuntimeWarning`.  `Constant.__init__` (components_structures.py:81-84) registers the
name before it converts the value; `TableStruct.__init__` (253-277) builds the table before it registers the name. -/
def exec : Call → Builder → Builder × Option PyErr
  | .independent n, b =>
    if n ∈ b.table then (b, some .runtimeWarning) else ({ b.register n with ind := n }, none)
  | .declare k n, b => if n ∈ b.table then (b, some .runtimeWarning) else (b.add k n, none)
  | .constraintParameter n, b => (b.add .constraintParameter n, none)
  | .constant n ok, b =>
    if n ∈ b.table then (b, some .runtimeWarning)
    else if ok then (b.add .constant n, none) else (b.register n, some .valueError)
  | .table n ok, b =>
    if n ∈ b.table then (b, some .runtimeWarning)
    else if ok then (b.add .table n, none) else (b, some .notImplementedError)
  | .scale ns, b => scaleLoop ns b
  | .unnamed, b => (b, none)

/-- A script that declares a problem, going on after exceptions (symbolic_problem.py:88-209). -/
def run (calls : List Call) (b : Builder) : Builder := calls.foldl (fun b c => (exec c b).1) b

/-- The names of all components, including the independent variable (symbolic_problem.py:12-72). -/
def Builder.names (b : Builder) : List Name := b.ind :: b.comps.map Prod.snd

end Beluga.Build
