import Verif.Extremal.User
import Verif.EndToEnd.Model

/-!
# Which names an expression may use (C78): the specification

beluga never checks that the symbols in the user's equations are declared.  Here is what a user would call a well-scoped
problem, the assumption on sympy that goes with it, and what it means that a trajectory fits a problem.
-/

namespace Beluga.Scope

open Beluga.Sym Beluga.Sym.Expr Beluga.Num Beluga.Map Beluga.Opt

/-- Only these symbols occur in the expression. -/
def Uses (e : Expr) (l : List Name) : Prop := ∀ s ∈ e.free, s ∈ l

/-- Solutions of equations contain only symbols of the equations, and a solution for all unknowns none of the unknowns;
solving `n` linear equations for `n` unknowns gives `n` values. -/
structure Tidy (S : Sympy) : Prop where
  solve : ∀ eqs syms, ∀ sol ∈ S.solve eqs syms, (∀ u ∈ syms, (sol.lookup u).isSome) → ∀ u ∈ syms, ∀ e, sol.lookup u = some e →
    ∀ s ∈ e.free, s ∉ syms ∧ ∃ q ∈ eqs, s ∈ q.free
  lu : ∀ M b x, S.lu M b = .ok x → ∀ e ∈ x, ∀ s ∈ e.free, (∃ r ∈ M, ∃ m ∈ r, s ∈ m.free) ∨ ∃ c ∈ b, s ∈ c.free
  size : ∀ M b x, S.lu M b = .ok x → (∀ r ∈ M, r.length = M.length) → x.length = M.length

/-- Symbols whose values follow from those of `base` by definitions. -/
inductive Determined (base : List Name) (defs : List (Name × List Expr)) : Name → Prop
  | base {s : Name} : s ∈ base → Determined base defs s
  | defn {n : Name} {l : List Expr} : (n, l) ∈ defs → (∀ e ∈ l, ∀ s ∈ e.free, Determined base defs s) → Determined base defs n

/-- The definitions of the quantities. -/
def quantityDefs (p : Prob) : List (Name × List Expr) := p.quantities.map fun q => (q.name, [q.expr])

/-- The definitions of the switches. -/
def switchDefs (p : Prob) : List (Name × List Expr) :=
  p.switches.map fun w => (w.name, w.tol :: (w.functions ++ w.conditions.flatten))

/-- What is known at every point apart from the controls.  Time is known if it becomes a state. -/
def known (o : Opts) (p : Prob) : List Name :=
  sts p ++ p.parameters ++ p.constants ++ if o.momentumShift then [p.ind] else []

/-- The names of quantities. -/
abbrev qtys (p : Prob) : List Name := p.quantities.map Quantity.name

/-- The names of switches. -/
abbrev swts (p : Prob) : List Name := p.switches.map Switch.name

/-- The expressions that matter at every point. -/
def pathExprs (p : Prob) : List Expr :=
  p.states.map Dyn.eom ++ p.quads.map Dyn.eom ++ p.path.flatMap parts ++ [p.costPath]

/-- The expressions that matter at the ends. -/
def endExprs (p : Prob) : List Expr := (p.initial ++ p.terminal).flatMap parts ++ [p.costInitial, p.costTerminal]

/-- The costs at the ends, and what will be added to them. -/
def costExprs (p : Prob) : List Expr :=
  ((p.initial ++ p.terminal).filter Con.twoSided).flatMap parts ++ [p.costInitial, p.costTerminal]

/-- A problem in which every symbol is declared and used where it has a value.  Bounds of controls, and the costs at the ends,
do not depend on controls. -/
structure WellScoped (o : Opts) (p : Prob) : Prop where
  start : p.costates = [] ∧ p.coparameters = [] ∧ p.controlLaw = []
  acyclic : Acyclic (defsQ p.quantities)
  path : ∀ e ∈ pathExprs p, Uses e (known o p ++ p.controls ++ qtys p ++ swts p)
  ends : ∀ e ∈ endExprs p, Uses e (known o p ++ p.controls ++ qds p ++ p.constraintParams ++ qtys p ++ swts p)
  costs : ∀ e ∈ costExprs p, ∀ s ∈ e.free, Determined (known o p ++ qds p) (quantityDefs p ++ switchDefs p) s
  quantities : ∀ d ∈ p.quantities, Uses d.expr (known o p ++ p.controls ++ qtys p)
  switches : ∀ w ∈ p.switches, ∀ e ∈ w.tol :: (w.functions ++ w.conditions.flatten), Uses e (known o p ++ p.controls ++ qtys p)
  bounds : ∀ c ∈ p.path, c.method = .epstrig → ∀ e ∈ c.lower.toList ++ c.upper.toList, ∀ s ∈ e.free,
    Determined (known o p) (quantityDefs p) s
  activators : ∀ c ∈ p.path, c.method = .epstrig → ∀ e ∈ c.activator.toList, Uses e (known o p ++ swts p)
  names : (known o p ++ p.controls ++ qds p ++ qtys p ++ swts p).Nodup
  trig : ∀ n, trigName n ∉ known o p ++ p.controls ++ qds p ++ qtys p ++ swts p

/-- A table with one row per time and the stated number of columns; nothing at all if there is no column. -/
def Table {K : Type} (a : Arr K) (T c : Nat) : Prop := (c = 0 ∧ a.len = 0) ∨ a.Shape T c

/-- `m` rows of `n` entries. -/
def IsMatrix {K : Type} (a : List (List K)) (m n : Nat) : Prop := a.length = m ∧ ∀ r ∈ a, r.length = n

/-- The arrays of a trajectory have the sizes that belong to the boundary value problem. -/
structure Fits {K : Type} (p : Prob) (s : Sol K) : Prop where
  times : s.t ≠ []
  states : s.y.Shape s.t.length p.states.length
  quads : Table s.q s.t.length p.quads.length
  dyn : s.dyn.length = p.parameters.length
  const : s.const.length = p.constants.length

/-- The arrays of a trajectory have the sizes that belong to the optimal control problem. -/
structure Delivered {K : Type} (p : Prob) (s : Sol K) : Prop extends Fits p s where
  duals : s.dual.Shape s.t.length p.states.length
  controls : s.u.Shape s.t.length p.controls.length
  cost : s.cost.isSome

/-- Every compiled function of the boundary value problem returns as many values as there are equations, whatever the values of
its arguments. -/
structure Computes (K : Type) [Field K] [LinearOrder K] (q : Prob) : Prop where
  rates : ∀ (I : Interp K) (y pr k : List K), y.length = q.states.length → pr.length = q.parameters.length →
    k.length = q.constants.length → ∃ v, derivFunc I q y pr k = .ok v ∧ v.length = q.states.length
  quads : ∀ f, quadFunc (K := K) q = some f → ∀ (I : Interp K) (y pr k : List K), y.length = q.states.length →
    pr.length = q.parameters.length → k.length = q.constants.length → ∃ v, f I y pr k = .ok v ∧ v.length = q.quads.length
  ends : ∀ (I : Interp K) (y₀ q₀ y₁ q₁ pr pc k : List K), y₀.length = q.states.length → q₀.length = q.quads.length →
    y₁.length = q.states.length → q₁.length = q.quads.length → pr.length = q.parameters.length →
    pc.length = q.constraintParams.length → k.length = q.constants.length →
    ∃ v, bcFunc I q y₀ q₀ y₁ q₁ pr pc k = .ok v ∧ v.length = q.initial.length + q.terminal.length

/-- So do the compiled Jacobians: a row for every equation, an entry for every variable. -/
structure Differentiates (K : Type) [Field K] [LinearOrder K] (q : Prob) : Prop where
  rates : ∀ I : Interp K, ∃ f, derivJac I q = .ok (some f) ∧ ∀ y pr k, y.length = q.states.length →
    pr.length = q.parameters.length → k.length = q.constants.length → ∃ a b, f y pr k = .ok (a, b) ∧
    IsMatrix a q.states.length q.states.length ∧ IsMatrix b q.states.length q.parameters.length
  ends : q.quads = [] → ∀ I : Interp K, ∃ f, bcJac I q = .ok f ∧ ∀ y₀ y₁ pr pc k, y₀.length = q.states.length →
    y₁.length = q.states.length → pr.length = q.parameters.length → pc.length = q.constraintParams.length →
    k.length = q.constants.length → ∃ a b c, f y₀ y₁ pr pc k = .ok (a, b, c) ∧
    IsMatrix a (q.initial.length + q.terminal.length) q.states.length ∧
    IsMatrix b (q.initial.length + q.terminal.length) q.states.length ∧
    IsMatrix c (q.initial.length + q.terminal.length) (q.parameters.length + q.constraintParams.length)

end Beluga.Scope
