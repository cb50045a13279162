import Verif.Bvp.Model
import Mathlib.Analysis.Calculus.Deriv.Basic

/-!
# What a user expects of the collocation solver

None of these definitions uses the stacking helpers of the model.
-/

namespace Beluga.Bvp

open Beluga.Traj (Arr)
open Beluga.Shoot (Fn)

section
variable {K : Type}

/-- A guess with `nY` states and `nQ` quadratures: rows of these lengths, one per time. -/
structure Guess (nY nQ : Nat) (s : Sol K) : Prop where
  states : ∃ ys, s.y = .mat nY ys ∧ ys ≠ [] ∧ ∀ r ∈ ys, r.length = nY
  quads : (nQ = 0 ∧ size s.q = 0) ∨ (0 < nQ ∧ ∃ ys qs, s.y = .mat nY ys ∧ s.q = .mat nQ qs ∧ qs.length = ys.length ∧
    ∀ r ∈ qs, r.length = nQ)

/-- The declared boundary conditions on a trajectory, as the continuation evaluates them on each solution
(continuation.py:586-602). -/
def residuals (bc : Fn K) (s : Sol K) : Py (List K) :=
  match s.y, s.q with
  | .mat _ ys, .mat nQ qs =>
    if nQ = 0 then bc [ys.getD 0 [], ys.getD (ys.length - 1) [], s.dyn, s.nondyn, s.const]
    else bc [ys.getD 0 [], qs.getD 0 [], ys.getD (ys.length - 1) [], qs.getD (qs.length - 1) [], s.dyn, s.nondyn, s.const]
  | _, _ => .error .indexError

/-- What scipy promises about `solve_bvp`: the answer has nodes of the same width, parameters if and only if some were
given, and if it reports success the boundary residual is `small`. -/
structure BvpSound (small : List K → Prop) (bvp : Stacked K → Py (Answer K)) : Prop where
  nodes : ∀ prob ans, bvp prob = .ok ans → ans.y ≠ [] ∧ ans.y.length = ans.x.length
  width : ∀ prob ans w, bvp prob = .ok ans → prob.y ≠ [] → (∀ r ∈ prob.y, r.length = w) → ∀ r ∈ ans.y, r.length = w
  params : ∀ prob ans, bvp prob = .ok ans →
    (prob.p = [] ∧ ans.p = none) ∨ (prob.p ≠ [] ∧ ∃ p, ans.p = some p ∧ p.length = prob.p.length)
  solved : ∀ prob ans, bvp prob = .ok ans → ans.success = true →
    ∃ r, prob.bc (ans.y.getD 0 []) (ans.y.getD (ans.y.length - 1) []) ans.p = .ok r ∧ small r

end

/-- `z' = f(z)` for all times, component by component. -/
def Flow (f : List ℝ → Py (List ℝ)) (n : Nat) (z : ℝ → List ℝ) : Prop :=
  ∀ t, ∃ r, f (z t) = .ok r ∧ r.length = n ∧ ∀ i < n, HasDerivAt (fun s => (z s).getD i 0) (r.getD i 0) t

/-- `q' = g(y)` for all times, component by component. -/
def Integral (g : List ℝ → Py (List ℝ)) (n : Nat) (y q : ℝ → List ℝ) : Prop :=
  ∀ t, ∃ r, g (y t) = .ok r ∧ r.length = n ∧ ∀ i < n, HasDerivAt (fun s => (q s).getD i 0) (r.getD i 0) t

/-- Component `i` of a function's value (zero if it raises). -/
noncomputable def comp (F : List ℝ → List ℝ → Py (List ℝ)) (i : Nat) (z p : List ℝ) : ℝ :=
  match F z p with
  | .ok r => r.getD i 0
  | .error _ => 0

/-- `dy` and `dp` are the matrices of partial derivatives of the `n` components of `F` at `(z, p)`. -/
def IsJac (F : List ℝ → List ℝ → Py (List ℝ)) (n : Nat) (z p : List ℝ) (dy dp : List (List ℝ)) : Prop :=
  dy.length = n ∧ dp.length = n ∧
  (∀ i < n, ∀ j < z.length, HasDerivAt (fun x => comp F i (z.set j x) p) ((dy.getD i []).getD j 0) (z.getD j 0)) ∧
  ∀ i < n, ∀ j < p.length, HasDerivAt (fun x => comp F i z (p.set j x)) ((dp.getD i []).getD j 0) (p.getD j 0)

/-- The function set last, `init` if none was. -/
def lastSet {F α : Type} (pick : α → Option (Option F)) (init : Option F) (ops : List α) : Option F :=
  ((ops.filterMap pick).getLast?).getD init

end Beluga.Bvp
