import Verif.Continuation.Endings

/-!
# Concrete runs used by the `example`s next to the continuation theorems

Problems with two constants `a = 0` and `b = 5`; solvers over `ℚ` that converge or fail according to a given
pattern `b : Nat → Bool` of call numbers, and count their calls in the payload.
-/

namespace Beluga.Cont.Wit

open Beluga.Cont

/-- Stand-in for the logarithm; the examples use linear spacing. -/
def idLog : LogOps ℚ := ⟨id, id⟩

/-- The solver whose call number `n` converges iff `b n`; it stores `n + 1` in the payload. -/
def okc (b : Nat → Bool) : Nat → Traj ℚ Nat → Py (Traj ℚ Nat) :=
  fun n g => .ok { g with converged := b n, data := n + 1 }

theorem okc_keeps (b : Nat → Bool) : KeepsConst (okc b) := by
  intro n g sol h; cases h; rfl

theorem stepLoop_total {K α : Type _} [Field K] [LinearOrder K] [IsStrictOrderedRing K] {L : LogOps K}
    {solve : Nat → Traj K α → Py (Traj K α)} (hk : KeepsConst solve)
    (ht : ∀ n g, ∃ sol, solve n g = .ok sol) {s1 : Strat K α} (fuel : Nat) {s : Strat K α} {n : Nat}
    {tr : List (Traj K α × Traj K α)} (he : Exec L s1 tr s) :
    Exec L s1 (stepLoop L solve fuel s n tr).trace (stepLoop L solve fuel s n tr).strat := by
  induction fuel generalizing s n tr with
  | zero => exact he
  | succ fuel ih =>
    unfold stepLoop
    split
    · exact he
    · exact he
    · next g s' hn =>
      obtain ⟨sol, hsol⟩ := ht n g
      rw [hsol]
      exact ih (Exec.step he hn (hk n g sol hsol))

/-- The names and values of the constants of the example problem. -/
def names : List String := ["a", "b"]
/-- The solution every example starts from. -/
def sol : Traj ℚ Nat := ⟨[0, 5], true, 0⟩

/-- The initialised step (or the step itself if `init` raises). -/
def start (s : Strat ℚ Nat) : Strat ℚ Nat := match s.init idLog sol names with | .ok t => t | _ => s

/-- The loop run from the initialised step. -/
def run (s : Strat ℚ Nat) (b : Nat → Bool) (fuel : Nat) : LoopRes ℚ Nat := stepLoop idLog (okc b) fuel (start s) 0 []

/-- Every such run is an execution in the sense of the specification. -/
theorem run_exec (s : Strat ℚ Nat) (b : Nat → Bool) (fuel : Nat) :
    Exec idLog (start s) (run s b fuel).trace (run s b fuel).strat :=
  stepLoop_total (okc_keeps b) (fun _ _ => ⟨_, rfl⟩) fuel Exec.start

theorem run_exec' {s : Strat ℚ Nat} {b : Nat → Bool} {fuel : Nat} {tr : List (Traj ℚ Nat × Traj ℚ Nat)}
    (h : (run s b fuel).trace = tr) : Exec idLog (start s) tr (run s b fuel).strat := h ▸ run_exec s b fuel

/-- Constants of the guesses and convergence of the solutions of a run. -/
def show_ (r : LoopRes ℚ Nat) : List (List ℚ × Bool) := r.trace.map fun p => (p.1.const, p.2.converged)

/-- Does the next request end the step? -/
def stops (s : Strat ℚ Nat) : Bool := match s.next idLog with | .error .stopIteration => true | _ => false

theorem stops_iff {s : Strat ℚ Nat} (h : stops s = true) : s.next idLog = .error .stopIteration := by
  unfold stops at h; split at h <;> simp_all

/-- Does the next request give a guess? -/
def goesOn (s : Strat ℚ Nat) : Bool := match s.next idLog with | .ok _ => true | _ => false

theorem goesOn_iff {s : Strat ℚ Nat} (h : goesOn s = true) : ∃ g s', s.next idLog = .ok (g, s') := by
  unfold goesOn at h; split at h
  · next gs hgs => exact ⟨gs.1, gs.2, hgs⟩
  · cases h

theorem trivialLog {s : Strat ℚ Nat} (h : s.spacing = .linear) : s.spacing = .log → Lawful idLog := by
  intro h'; rw [h] at h'; cases h'

theorem trivialLogOK {s : Strat ℚ Nat} (h : s.spacing = .linear) {n : List String} {t : List (String × ℚ)}
    {c : List ℚ} : LogOK s.spacing n t c := by
  intro h'; rw [h] at h'; cases h'

/-- A manual step moving `a` to `1` in three cases. -/
def man : Strat ℚ Nat := (Strat.newManual 3).const "a" 1
theorem man_starts : Starts idLog man sol names (start man) := ⟨by decide, by decide, by decide, by decide, rfl⟩

/-- A manual step with the default single case. -/
def man1 : Strat ℚ Nat := Strat.newManual.const "a" 1
theorem man1_starts : Starts idLog man1 sol names (start man1) := ⟨by decide, by decide, by decide, by decide, rfl⟩

/-- A bisection step moving `a` to `1` and `b` to `7`; two cases, at most one division, two parts. -/
def bis : Strat ℚ Nat := ((Strat.newBisection 2 1 2).const "a" 1).const "b" 7
theorem bis_starts : Starts idLog bis sol names (start bis) := ⟨by decide, by decide, by decide, by decide, rfl⟩

/-- A productspace step with two constants and three subdivisions. -/
def prod : Strat ℚ Nat := ((Strat.newProduct 3).const "b" 7).const "a" 1
theorem prod_starts : Starts idLog prod sol names (start prod) := ⟨by decide, by decide, by decide, by decide, rfl⟩

/-- A sparse_product step: two major points for `b`, three for `a`, one minor point in between. -/
def sparse : Strat ℚ Nat := ((Strat.newSparse [2, 3] [1, 1]).const "b" 7).const "a" 1
theorem sparse_starts : Starts idLog sparse sol names (start sparse) :=
  ⟨by decide, by decide, by decide, by decide, rfl⟩

/-- Always converges. -/
def always : Nat → Bool := fun _ => true
/-- Fails on the second call only. -/
def fail2 : Nat → Bool := fun n => n != 1
/-- Converges on the first call only. -/
def only1 : Nat → Bool := fun n => n == 0

example : show_ (run man always 10) = [([0, 5], true), ([1/2, 5], true), ([1, 5], true)] := by decide +kernel
example : (run man always 10).ending = .ended := by decide +kernel
example : show_ (run man fail2 10) = [([0, 5], true), ([1/2, 5], false)] := by decide +kernel
example : (run man fail2 10).ending = .raised .runtimeError := by decide +kernel
example : show_ (run bis fail2 10) =
    [([0, 5], true), ([1, 7], false), ([1/2, 6], true), ([1, 7], true)] := by decide +kernel
example : (run bis fail2 10).ending = .ended := by decide +kernel
example : show_ (run bis only1 10) =
    [([0, 5], true), ([1, 7], false), ([1/2, 6], false), ([1/4, 11/2], false)] := by decide +kernel
example : (run bis only1 10).ending = .raised .runtimeError := by decide +kernel
example : show_ (run prod fail2 10) =
    [([0, 5], true), ([1/2, 5], false), ([1, 5], true), ([0, 6], true), ([1/2, 6], true), ([1, 6], true),
     ([0, 7], true), ([1/2, 7], true), ([1, 7], true)] := by decide +kernel
example : show_ (run sparse always 20) =
    [([0, 5], true), ([0, 6], true), ([0, 7], true),
     ([1/4, 5], true), ([1/2, 5], true), ([3/4, 5], true), ([1, 5], true),
     ([1/4, 7], true), ([1/2, 7], true), ([3/4, 7], true), ([1, 7], true)] := by decide +kernel

end Beluga.Cont.Wit
