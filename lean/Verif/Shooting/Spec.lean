import Verif.Shooting.Model
import Verif.Traj.Spec

/-!
# What is expected of the shooting solver and its environment
-/

namespace Beluga.Shoot

open Beluga.Traj (Arr Curve Fits FitsOrEmpty)

variable {K : Type} [Field K] [LinearOrder K]

/-- What SciPy promises of `solve_ivp` on a forward span: it passes on exceptions of the right-hand side, and otherwise returns
increasing times from the start of the span on, with a state for each, the first being the initial one. -/
structure IvpSound (ivp : Ivp K) : Prop where
  raises : ∀ {rhs tspan y0 e}, rhs y0 = .error e → ivp rhs tspan y0 = .error e
  sorted : ∀ {rhs tspan y0 ts ys}, ivp rhs tspan y0 = .ok (ts, ys) → tspan.getD 0 0 < lastT tspan → ts.Pairwise (· < ·)
  length : ∀ {rhs tspan y0 ts ys}, ivp rhs tspan y0 = .ok (ts, ys) → ys.length = ts.length
  pos : ∀ {rhs tspan y0 ts ys}, ivp rhs tspan y0 = .ok (ts, ys) → 0 < ts.length
  first : ∀ {rhs tspan y0 ts ys}, ivp rhs tspan y0 = .ok (ts, ys) → ts.getD 0 0 = tspan.getD 0 0
  state : ∀ {rhs tspan y0 ts ys}, ivp rhs tspan y0 = .ok (ts, ys) → ys.getD 0 [] = y0
  width : ∀ {rhs tspan y0 ts ys}, ivp rhs tspan y0 = .ok (ts, ys) → ∀ r ∈ ys, r.length = y0.length

/-- The integration reaches the end of its span.  `solve_ivp` reports a failure in `status` only, which is not looked at. -/
def Complete (ivp : Ivp K) : Prop := ∀ {rhs tspan y0 ts ys}, ivp rhs tspan y0 = .ok (ts, ys) → lastT ts = lastT tspan

/-- A guess with increasing times, `nO` states and `nQ` quadratures. -/
structure Guess (nO nQ : Nat) (sol : Curve K) : Prop where
  times : sol.t.Pairwise (· < ·)
  two : 2 ≤ sol.t.length
  y : ∃ rows, sol.y = .mat nO rows ∧ Fits sol.t.length sol.y
  q : (nQ = 0 ∧ sol.q = .vec []) ∨ ∃ rows, sol.q = .mat nQ rows ∧ Fits sol.t.length sol.q
  u : FitsOrEmpty sol.t.length sol.u

/-- Every component of a vector is bounded by its norm. -/
def NormSound (norm : List K → K) : Prop := ∀ v, ∀ a ∈ v, |a| ≤ norm v

/-- The time of the junction `i` of `n` equal arcs. -/
def junction (sol : Curve K) (n i : Nat) : K := sol.t.getD 0 0 + (i : K) * ((lastT sol.t - sol.t.getD 0 0) / (n : K))

/-- The arcs of which a result is made. -/
structure MadeOf (E : Env K) (sol : Curve K) (n : Nat) (arcs : List (Curve K)) (r : Result K) : Prop where
  number : arcs.length = n
  /-- Each arc solves the differential equation with the parameters of the result on its share of the interval. -/
  solves : ∀ i < n, ∃ y0 g, arcs[i]? = some g ∧
    E.ivp (fun y => E.eom [y, r.p, E.const]) [junction sol n i, junction sol n (i + 1)] y0 = .ok (g.t, rows g.y)
  t : r.t = stitch (arcs.map fun g => g.t)
  y : r.y = stitch (arcs.map fun g => rows g.y)
  q : r.q = stitch (arcs.map fun g => rows g.q)

/-- What the boundary conditions are evaluated on. -/
def ends (r : Result K) (const : List K) : List (List K) :=
  let y0 := r.y.getD 0 []
  let yf := r.y.getD (r.y.length - 1) []
  if r.q = [] then [y0, yf, r.p, r.pn, const]
  else [y0, r.q.getD 0 [], yf, r.q.getD (r.q.length - 1) [], r.p, r.pn, const]

/-- The last row of an array. -/
def final : Arr K → List K
  | .vec l => (l.map fun a => [a]).getLastD []
  | .mat _ r => r.getLastD []

/-- The differences between the end of each arc and the start of the next one. -/
def gaps : List (Curve K) → List K
  | g :: h :: rest => List.zipWith (· - ·) (final g.y) (row h.y 0) ++ gaps (h :: rest)
  | _ => []

/-- The algorithms of SciPy's `minimize` that are given the square of the residual, those that are given it as a constraint, and
those of `root`. -/
def squared : List String :=
  ["Nelder-Mead", "Powell", "CG", "BFGS", "Newton-CG", "L-BFGS-B", "TNC", "dogleg", "trust-ncg", "trust-exact", "trust-krylov"]

@[inherit_doc squared] def constrained : List String := ["COBYLA", "SLSQP", "trust-constr"]

@[inherit_doc squared] def rootFinders : List String :=
  ["hybr", "lm", "broyden1", "broyden2", "anderson", "linearmixing", "diagbroyden", "excitingmixing", "krylov", "df-sane"]

/-- The result satisfies boundary conditions and continuity up to `tol`. -/
structure Satisfied (E : Env K) (sol : Curve K) (n : Nat) (tol : K) (r : Result K) : Prop where
  bcs : ∃ b, E.bc (ends r E.const) = .ok b ∧ ∀ a ∈ b, |a| ≤ tol
  arcs : ∃ arcs, MadeOf E sol n arcs r ∧
    ∀ i g h, arcs[i]? = some g → arcs[i + 1]? = some h → ∀ j < (row h.y 0).length,
      |(final g.y).getD j 0 - (row h.y 0).getD j 0| ≤ tol

/-- What the trajectory of a result leaves of continuity and boundary conditions has the norm `e`. -/
def Leaves (E : Env K) (sol : Curve K) (n : Nat) (norm : List K → K) (r : Result K) (e : K) : Prop :=
  ∃ arcs b, MadeOf E sol n arcs r ∧ E.bc (ends r E.const) = .ok b ∧ e = norm (gaps arcs ++ b)

end Beluga.Shoot
