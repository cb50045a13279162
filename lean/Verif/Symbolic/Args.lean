import Verif.Symbolic.Regularise

/-!
# Substitution in the arguments of tables and user functions

`Expr.subs` substitutes everywhere.  sympy rebuilds a function whose argument has changed with `self.func(*args)`; for the classes
of tables and user functions this calls `__new__` without the table (tables.py:25) or without the name and the function
(custom_functions.py:47), which is a `TypeError`.  This file has the functors that substitute with this behaviour, and the pipelines
made of them.
-/

namespace Beluga.Sym

open Expr

/-- The symbols in the arguments of tables and user functions. -/
def Expr.args : Expr → List Name
  | num _ => []
  | pi => []
  | sym _ => []
  | add a b => args a ++ args b
  | mul a b => args a ++ args b
  | inv a => args a
  | pow a _ => args a
  | fn (.user _ _) a => a.free
  | fn _ a => args a

/-- `expr.subs(x, new)` raises: the argument of a table or user function changes, and the function is made anew from its argument alone
(tables.py:25, custom_functions.py:47).  A substitution of a symbol by itself is skipped by sympy. -/
def blocked (x : Name) (new e : Expr) : Bool := new ≠ sym x && decide (x ∈ e.args)

/-- The expressions in which `subs_all` substitutes (symbolic_problem.py:243-266). -/
def Prob.visited (p : Prob) : List Expr :=
  p.states.map Dyn.eom ++ p.costates.map Dyn.eom ++ p.coparameters.map Dyn.eom ++
    (p.initial ++ p.path ++ p.terminal).flatMap (fun c => c.expr :: (c.lower.toList ++ c.upper.toList)) ++
    [p.costInitial, p.costPath, p.costTerminal] ++ p.quantities.map Quantity.expr ++ p.switches.map Switch.symFunc ++
    p.hamiltonian.toList ++ p.quads.map Dyn.eom ++ p.symmetries.flatten ++ p.coms.map Prod.snd ++ p.units.map Prod.snd

/-- `Problem.subs_all` (symbolic_problem.py:243-266). -/
def Prob.subsAllPy (x : Name) (e : Expr) (p : Prob) : Py Prob :=
  if p.visited.any (blocked x e) then .error .typeError else .ok (p.subsAll x e)

/-- `quantity_j.subs_self(quantity_i.sym, quantity_i.expr)` for all `j` (mapping_functions.py:130-132). -/
def mergeRowPy (i : Nat) (qs : List Quantity) : Nat → Py (List Quantity)
  | 0 => .ok qs
  | j + 1 => do
    let qs ← mergeRowPy i qs j
    match qs[i]?, qs[j]? with
    | some qi, some qj =>
      if qi.name ∈ qj.cached then
        if blocked qi.name qi.expr qj.expr then .error .typeError else .ok (qs.set j (qj.subs qi.name qi.expr))
      else .ok qs
    | _, _ => .ok qs

/-- The double loop (mapping_functions.py:129-132). -/
def mergeRowsPy (n : Nat) (qs : List Quantity) : Nat → Py (List Quantity)
  | 0 => .ok qs
  | i + 1 => do mergeRowPy i (← mergeRowsPy n qs i) n

/-- The second loop (mapping_functions.py:134-135). -/
def elimLoopPy (p : Prob) : Nat → Py Prob
  | 0 => .ok p
  | k + 1 => do
    let p ← elimLoopPy p k
    match p.quantities[k]? with
    | some q => p.subsAllPy q.name q.expr
    | none => .ok p

/-- `ApplyQuantities.transformation` (mapping_functions.py:124-139). -/
def applyQuantitiesPy (p : Prob) : Py Prob := do
  if !p.sympified then .error .valueError
  else
    let qs ← mergeRowsPy p.quantities.length p.quantities p.quantities.length
    elimLoopPy { p with quantities := qs } p.quantities.length

/-- `EpsTrig.transformation` (mapping_functions.py:186-225). -/
def epsTrigPy (p : Prob) : Py Prob :=
  if !p.sympified then .error .valueError
  else
    match p.path.findIdx? fun c => c.method = .epstrig with
    | none => .error .runtimeWarning
    | some i =>
      match p.path[i]? with
      | none => .error .runtimeWarning
      | some c =>
        match p.controls.findIdx? fun u => c.expr = sym u with
        | none => .error .notImplementedError
        | some k =>
          match p.controls[k]?, c.activator, c.lower, c.upper with
          | some u, some a, some lo, some hi => do
            let new := "_" ++ u ++ "_trig"
            let p1 : Prob := { p with
              path := p.path.eraseIdx i
              controls := p.controls.set k new
              costPath := p.costPath + (-a) * fn .cos (sym new) }
            let p2 ← p1.subsAllPy u ((hi - lo) / 2 * fn .sin (sym new) + (hi + lo) / 2)
            .ok { p2 with chain := p2.chain ++ [.epsTrig k lo hi p2.ind (p2.states.map Dyn.name) p2.parameters
              p2.constants] }
          | _, _, _, _ => .error .typeError

/-- The loop of `RASHS` (mapping_functions.py:298-299). -/
def rashsLoopPy (p : Prob) : Nat → Py Prob
  | 0 => .ok p
  | k + 1 => do
    let p ← rashsLoopPy p k
    match p.switches[k]? with
    | some s => p.subsAllPy s.name s.symFunc
    | none => .ok p

/-- `RASHS.transformation` (mapping_functions.py:291-301). -/
def rashsPy (p : Prob) : Py Prob := if !p.sympified then .error .valueError else rashsLoopPy p p.switches.length

/-- The `transformation` of a functor (mapping_functions.py:103-107). -/
def Step.runPy (S : Sympy) : Step → Prob → Py Prob
  | .epsTrig => epsTrigPy
  | .rashs => rashsPy
  | s => s.run S

/-- The composed functors of a pipeline (mapping_functions.py:103-107). -/
def runStepsPy (S : Sympy) (steps : List Step) (p : Prob) : Py Prob := steps.foldlM (fun p s => s.runPy S p) p

/-- `make_preprocessor()(prob)` (mapping_functions.py:788-795). -/
def preprocessPy (p : Prob) : Py Prob := do
  let p ← p.sympify
  applyQuantitiesPy p

/-- `make_indirect_method(prob)(prob)` as in `solve` (beluga.py:131-147). -/
def indirectPy (S : Sympy) (o : Opts) (p : Prob) : Py Prob := do
  let p ← preprocessPy p
  let steps ← indirectSteps o p
  runStepsPy S steps p

/-- `make_direct_method(prob)(prob)` as in `solve` (beluga.py:131-147). -/
def directPy (S : Sympy) (jac shift norm : Bool) (p : Prob) : Py Prob := do
  let p ← preprocessPy p
  let steps ← directSteps jac shift norm p
  runStepsPy S steps p

end Beluga.Sym
