import Verif.Continuation.Model
import Mathlib.Logic.Function.Basic

/-!
# Vocabulary of the continuation properties

Nothing here refers to the step lists or counters of the model: an execution is a sequence of
(guess handed to the solver, solution it returned) pairs.
-/

namespace Beluga.Cont

variable {K : Type _} {α : Type _}

section
variable [Field K] [LinearOrder K]

/-- What is assumed about `log10` / `10**x` (true for the real functions, see `realLog_lawful`). -/
structure Lawful (L : LogOps K) : Prop where
  pow_log : ∀ x, 0 < x → L.pow10 (L.log10 x) = x
  log_pow : ∀ x, L.log10 (L.pow10 x) = x
  pow_pos : ∀ x, 0 < L.pow10 x
  mono : ∀ x y, x < y → L.pow10 x < L.pow10 y

/-- The value a fraction `τ` of the way from `v` to `w`: linear, or linear in the logarithm. -/
def between (L : LogOps K) (sp : Spacing) (v w τ : K) : K :=
  match sp with
  | .log => L.pow10 (L.log10 v + τ * (L.log10 w - L.log10 v))
  | _ => v + τ * (w - v)

/-- `c` is the vector of constants `start` in which every constant with a declared target has moved the fraction
`τ` of the way to its target and every other constant is unchanged. -/
def OnPath (L : LogOps K) (sp : Spacing) (names : List String) (targets : List (String × K)) (start : List K)
    (τ : K) (c : List K) : Prop :=
  c.length = start.length ∧
    ∀ (j : Nat) (n : String) (v : K), names[j]? = some n → start[j]? = some v →
      c[j]? = some (match targets.lookup n with
        | some w => between L sp v w τ
        | none => v)

/-- `c` has every declared constant at its target and every other constant as in `start`. -/
def AtTarget (names : List String) (targets : List (String × K)) (start c : List K) : Prop :=
  c.length = start.length ∧
    ∀ (j : Nat) (n : String) (v : K), names[j]? = some n → start[j]? = some v →
      c[j]? = some ((targets.lookup n).getD v)

/-- Every constant that is not declared in the step has its starting value in `c`. -/
def Unchanged (names : List String) (targets : List (String × K)) (start c : List K) : Prop :=
  c.length = start.length ∧
    ∀ (j : Nat) (n : String), names[j]? = some n → targets.lookup n = none → c[j]? = start[j]?

/-- The declared constants and their targets. -/
def Strat.targets (s : Strat K α) : List (String × K) := s.vars.map fun nv => (nv.1, nv.2.target)

/-- Strategy objects a user can build with the constructors and the chained calls. -/
inductive Built : Strat K α → Prop where
  | manual (n : Nat) : Built (.newManual n)
  | bisection (n mx nd : Nat) : Built (.newBisection n mx nd)
  | product (n : Nat) : Built (.newProduct n)
  | sparse (a b : List Nat) : Built (.newSparse a b)
  | const {s : Strat K α} (n : String) (t : K) : Built s → Built (s.const n t)
  | numCases {s s' : Strat K α} (n : Nat) (sp : Spacing) : Built s → s.setNumCases n sp = .ok s' → Built s'
  | numSub {s s' : Strat K α} (n : Nat) : Built s → s.setNumSub n = .ok s' → Built s'
  | numSubs {s s' : Strat K α} (a b : List Nat) : Built s → s.setNumSubs a b = .ok s' → Built s'

/-- A step is started from solution `sol` of a problem whose constants are `names`. -/
structure Starts (L : LogOps K) (s0 : Strat K α) (sol : Traj K α) (names : List String) (s1 : Strat K α) :
    Prop where
  keys : (s0.vars.map Prod.fst).Nodup
  ctr : s0.ctr = 0
  names_nodup : names.Nodup
  names_len : names.length = sol.const.length
  init : s0.init L sol names = .ok s1

/-- `Exec L s1 tr s`: from the initialised step `s1`, the pairs `tr` of (guess, solution) have been exchanged with
the solver and the strategy is now in state `s`.  The solver is arbitrary except that it returns a solution of
the problem it was given, i.e. with the same constants. -/
inductive Exec (L : LogOps K) (s1 : Strat K α) : List (Traj K α × Traj K α) → Strat K α → Prop where
  | start : Exec L s1 [] s1
  | step {tr : List (Traj K α × Traj K α)} {s s' : Strat K α} {g sol : Traj K α} :
      Exec L s1 tr s → s.next L = .ok (g, s') → sol.const = g.const →
      Exec L s1 (tr ++ [(g, sol)]) (s'.addGamma sol)

/-- Logarithmic spacing only makes sense between positive values (numpy's `log10` gives NaN otherwise). -/
def LogOK (sp : Spacing) (names : List String) (targets : List (String × K)) (start : List K) : Prop :=
  sp = .log → ∀ (j : Nat) (n : String) (v w : K), names[j]? = some n → start[j]? = some v →
    targets.lookup n = some w → 0 < v ∧ 0 < w

/-- Number of failed solves at the end of a trace. -/
def trailingFailures (tr : List (Traj K α × Traj K α)) : Nat :=
  (tr.reverse.takeWhile fun p => !p.2.converged).length

/-- Number of failed solves in a trace. -/
def failures (tr : List (Traj K α × Traj K α)) : Nat :=
  (tr.filter fun p => !p.2.converged).length

/-- L1 distance of two vectors. -/
def dist1 : List K → List K → K
  | x :: xs, y :: ys => |x - y| + dist1 xs ys
  | _, _ => 0

/-- `Ran L solve n s1 tr s`: from the initialised step `s1`, the loop asked the solver (calls number `n`, `n+1`, …)
for each guess and recorded the answers `tr`; the strategy is now `s`. -/
inductive Ran (L : LogOps K) (solve : Nat → Traj K α → Py (Traj K α)) (n : Nat) (s1 : Strat K α) :
    List (Traj K α × Traj K α) → Strat K α → Prop where
  | start : Ran L solve n s1 [] s1
  | step {tr : List (Traj K α × Traj K α)} {s s' : Strat K α} {g sol : Traj K α} :
      Ran L solve n s1 tr s → s.next L = .ok (g, s') → solve (n + tr.length) g = .ok sol →
      Ran L solve n s1 (tr ++ [(g, sol)]) (s'.addGamma sol)

/-- The steps `ss` were run to their normal end one after the other, the first from `guess`, each later one from
the last solution of the previous one (or from its start when that one solved nothing); `trs` are the exchanges. -/
inductive Chain (L : LogOps K) (solve : Nat → Traj K α → Py (Traj K α)) (names : List String) :
    Nat → Traj K α → List (Strat K α) → List (List (Traj K α × Traj K α)) → Prop where
  | nil {n : Nat} {g : Traj K α} : Chain L solve names n g [] []
  | cons {n : Nat} {g : Traj K α} {s s1 s' : Strat K α} {rest : List (Strat K α)}
      {tr : List (Traj K α × Traj K α)} {trs : List (List (Traj K α × Traj K α))} :
      s.reset.init L g names = .ok s1 → Ran L solve n s1 tr s' → s'.next L = .error .stopIteration →
      Chain L solve names (n + tr.length) (((tr.map Prod.snd).getLast?).getD g) rest trs →
      Chain L solve names n g (s :: rest) (tr :: trs)

/-! Index tuples of the sparse product grid: `M q` major points and `s q` minor steps per major step in direction
`q`; coordinate `q` of a tuple counts minor steps. -/

/-- Index tuples visited by the sparse strategy: only the last non-zero coordinate may lie off the major grid. -/
def SparseIdx (M s : Nat → Nat) (k : Nat) (f : Nat → Nat) : Prop :=
  (∀ q, k ≤ q → f q = 0) ∧
  ∀ q, q < k → f q ≤ (M q - 1) * s q ∧ (s q ∣ f q ∨ ∀ q', q < q' → f q' = 0)

/-- Index tuples of the major grid. -/
def MajorIdx (M s : Nat → Nat) (k : Nat) (f : Nat → Nat) : Prop :=
  (∀ q, k ≤ q → f q = 0) ∧ ∀ q, q < k → f q ≤ (M q - 1) * s q ∧ s q ∣ f q

/-- Each entry after the first is one minor increment away from an earlier entry. -/
def Linked (F : List (Nat → Nat)) : Prop :=
  ∀ (i : Nat) (f : Nat → Nat), F[i]? = some f → 0 < i →
    ∃ (j : Nat) (r : Nat), j < i ∧ f r ≠ 0 ∧ F[j]? = some (Function.update f r (f r - 1))

end

end Beluga.Cont
