import Verif.Symbolic.Problem
import Mathlib.Analysis.Convex.Function

/-!
# What the symbolic functors are supposed to do

Nothing here mentions the functors.
-/

namespace Beluga.Sym

open Expr

/-- Rewrite every equation of a problem: rates, constraint expressions and bounds, costs, switching functions,
Hamiltonian, symmetries, constants of motion and unit sizes. -/
def Prob.mapEqs (f : Expr → Expr) (p : Prob) : Prob := { p with
  states := p.states.map fun d => ⟨d.name, f d.eom⟩
  costates := p.costates.map fun d => ⟨d.name, f d.eom⟩
  coparameters := p.coparameters.map fun d => ⟨d.name, f d.eom⟩
  quads := p.quads.map fun d => ⟨d.name, f d.eom⟩
  initial := p.initial.map fun c => ⟨f c.expr, c.lower.map f, c.upper.map f, c.activator, c.method⟩
  path := p.path.map fun c => ⟨f c.expr, c.lower.map f, c.upper.map f, c.activator, c.method⟩
  terminal := p.terminal.map fun c => ⟨f c.expr, c.lower.map f, c.upper.map f, c.activator, c.method⟩
  costInitial := f p.costInitial
  costPath := f p.costPath
  costTerminal := f p.costTerminal
  switches := p.switches.map fun s => ⟨s.name, s.functions, s.conditions, s.tol, f s.symFunc⟩
  hamiltonian := p.hamiltonian.map f
  symmetries := p.symmetries.map fun s => s.map f
  coms := p.coms.map fun c => (c.1, f c.2)
  units := p.units.map fun c => (c.1, f c.2) }

/-- The problem without its table of quantities. -/
def Prob.dropQuantities (p : Prob) : Prob := { p with quantities := [] }

/-- The problem without its tables of quantities and switches. -/
def Prob.dropTables (p : Prob) : Prob := { p with quantities := [], switches := [] }

/-- A table of definitions is acyclic if the symbols can be ranked so that every definition only uses defined symbols
of smaller rank (the order of declaration does not matter). -/
def Acyclic (defs : List (Name × Expr)) : Prop :=
  ∃ r : Name → Nat, ∀ d ∈ defs, ∀ s ∈ d.2.free, s ∈ defs.map Prod.fst → r s < r d.1

/-- In the environment `ρ` every defined symbol has the value of its definition. -/
def Consistent {K : Type _} [Field K] (I : Interp K) (defs : List (Name × Expr)) (ρ : Name → K) : Prop :=
  ∀ d ∈ defs, ρ d.1 = eval I ρ d.2

/-- `f` eliminates the defined symbols without changing the meaning of any expression, and leaves expressions without
defined symbols as they are.  A class of symbols that contains the symbols of its definitions is not left. -/
structure Eliminates (defs : List (Name × Expr)) (f : Expr → Expr) : Prop where
  gone : ∀ e, ∀ s ∈ (f e).free, s ∉ defs.map Prod.fst
  fresh : ∀ e, ∀ s ∈ (f e).free, s ∈ e.free ∨ ∃ d ∈ defs, s ∈ d.2.free
  meaning : ∀ {K : Type} [Field K] (I : Interp K) (ρ : Name → K), Consistent I defs ρ →
    ∀ e, eval I ρ (f e) = eval I ρ e
  fixes : ∀ e, (∀ s ∈ e.free, s ∉ defs.map Prod.fst) → f e = e
  closed : ∀ P : Name → Prop, (∀ d ∈ defs, P d.1 → ∀ s ∈ d.2.free, P s) → ∀ e, (∀ s ∈ e.free, P s) → ∀ s ∈ (f e).free, P s

/-- The name and definition of every quantity. -/
def defsQ (qs : List Quantity) : List (Name × Expr) := qs.map fun q => (q.name, q.expr)

/-- The name and definition of every switch. -/
def defsS (ss : List Switch) : List (Name × Expr) := ss.map fun s => (s.name, s.symFunc)

/-- How many of the conditions hold, i.e. are negative. -/
noncomputable def satisfied (v : Expr → ℝ) (conds : List Expr) : Nat := conds.countP fun c => decide (v c < 0)

/-- `B` is a barrier on the interval: zero in the middle, non-negative inside, strictly growing towards either end,
unbounded there, and convex. -/
structure IsBarrier (lo hi : ℝ) (B : ℝ → ℝ) : Prop where
  middle : B ((lo + hi) / 2) = 0
  nonneg : ∀ x, lo < x → x < hi → 0 ≤ B x
  right : StrictMonoOn B (Set.Ico ((lo + hi) / 2) hi)
  left : StrictAntiOn B (Set.Ioc lo ((lo + hi) / 2))
  top : Filter.Tendsto B (nhdsWithin hi (Set.Iio hi)) Filter.atTop
  bottom : Filter.Tendsto B (nhdsWithin lo (Set.Ioi lo)) Filter.atTop
  convex : ConvexOn ℝ (Set.Ioo lo hi) B

/-- `B` is the secant penalty of the literature, which is a barrier on the interval from `lo` to `hi` for every positive
activator `a`, proportional to the activator, and at a distance of the fraction `μ` of the interval from both ends at most
`a / (2 μ)`. -/
structure Barriers (B : ℝ → ℝ → ℝ → ℝ → ℝ) : Prop where
  secant : ∀ a lo hi x, B a lo hi x = a * (1 / Real.cos (Real.pi / 2 * (2 * x - hi - lo) / (hi - lo)) - 1)
  barrier : ∀ a lo hi, 0 < a → lo < hi → IsBarrier lo hi (B a lo hi)
  linear : ∀ a lo hi x, B a lo hi x = a * B 1 lo hi x
  bound : ∀ a lo hi μ x, 0 ≤ a → lo < hi → 0 < μ → lo + μ * (hi - lo) ≤ x → x ≤ hi - μ * (hi - lo) →
    B a lo hi x ≤ a / (2 * μ)

/-- The part of the cost that belongs to the initial point, the path or the terminal point. -/
def Prob.costAt (p : Prob) : Nat → Expr
  | 0 => p.costInitial
  | 1 => p.costPath
  | _ => p.costTerminal

/-- The constraints of that part. -/
def Prob.consAt (p : Prob) : Nat → List Con
  | 0 => p.initial
  | 1 => p.path
  | _ => p.terminal

/-- The control that replaces `u` when `u` is regularised by 'epstrig'. -/
def trigName (u : Name) : Name := "_" ++ u ++ "_trig"

/-- The controls bounded by 'epstrig'. -/
def epsControls (cons : List Con) : List Name :=
  cons.filterMap fun c => match c.method, c.expr with
    | .epstrig, .sym u => some u
    | _, _ => none

/-- What a two-sided constraint adds to the cost: a barrier `B` for 'utm', minus the activator times the cosine of the
new control for 'epstrig'. -/
noncomputable def penalty (B : ℝ → ℝ → ℝ → ℝ → ℝ) (U : Name → Nat → ℝ → ℝ) (ρ : Name → ℝ) (c : Con) : ℝ :=
  match c.method, c.activator, c.lower, c.upper with
  | .utm, some a, some lo, some hi =>
    B (eval (real U) ρ a) (eval (real U) ρ lo) (eval (real U) ρ hi) (eval (real U) ρ c.expr)
  | .epstrig, some a, some _, some _ =>
    match c.expr with
    | .sym u => -(eval (real U) ρ a) * Real.cos (ρ (trigName u))
    | _ => 0
  | _, _, _, _ => 0

/-- The sum of the penalties of the two-sided constraints in a list. -/
noncomputable def penalties (B : ℝ → ℝ → ℝ → ℝ → ℝ) (U : Name → Nat → ℝ → ℝ) (ρ : Name → ℝ) (cons : List Con) : ℝ :=
  ((cons.filter Con.twoSided).map (penalty B U ρ)).sum

/-- Every control bounded by 'epstrig' has the value that its trigonometric replacement gives it. -/
def TrigEnv (p : Prob) (U : Name → Nat → ℝ → ℝ) (ρ : Name → ℝ) : Prop :=
  ∀ c ∈ p.path, ∀ u lo hi, c.method = .epstrig → c.expr = sym u → c.lower = some lo → c.upper = some hi →
    ρ u = (eval (real U) ρ hi - eval (real U) ρ lo) / 2 * Real.sin (ρ (trigName u)) +
      (eval (real U) ρ hi + eval (real U) ρ lo) / 2

/-- The problems that the documentation allows: boundary inequalities use 'utm', 'epstrig' bounds a control on the path
from both sides, by expressions without controls, activators of 'utm' are declared constants, names are distinct.
`C` is the list of control names the user declared. -/
structure Regularisable (C : List Name) (p : Prob) : Prop where
  sympified : p.sympified = true
  ends : ∀ c ∈ p.initial ++ p.terminal, c.twoSided = true → c.method = .utm
  known : ∀ c ∈ p.path, c.twoSided = true → c.method ≠ .other
  act : ∀ c ∈ p.initial ++ p.path ++ p.terminal, c.twoSided = true → c.method = .utm →
    ∃ k ∈ p.constants, c.activator = some (sym k)
  eps : ∀ c ∈ p.path, c.method = .epstrig → ∃ u a lo hi, c.expr = sym u ∧ u ∈ p.controls ∧ u ∈ C ∧
    c.activator = some a ∧ c.lower = some lo ∧ c.upper = some hi ∧
    ∀ s ∈ a.free ++ lo.free ++ hi.free, s ∉ C
  once : (epsControls p.path).Nodup
  fresh : ∀ u ∈ C, trigName u ∉ C

/-- Everything that regularisation leaves alone: the problem without two-sided constraints, costs, controls, mappers and
quantities. -/
def Prob.bare (p : Prob) : Prob := { p with
  initial := p.initial.filter fun c => !c.twoSided
  path := p.path.filter fun c => !c.twoSided
  terminal := p.terminal.filter fun c => !c.twoSided
  costInitial := 0, costPath := 0, costTerminal := 0, controls := [], chain := [], quantities := [] }

end Beluga.Sym
