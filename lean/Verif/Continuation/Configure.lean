import Verif.Continuation.Props2

/-!
# Property C83: a step keeps what it is told

The chained calls `step.num_cases(...).const(...)...` that set up a continuation step.
-/

namespace Beluga.Cont

variable {K : Type _} {α : Type _}

/-- One call of a setter of a step (continuation.py:208-226, 334-339, 369-376, 423-428, 491-498). -/
inductive Call (K : Type _) where
  | const (name : String) (target : K)
  | numCases (n : Nat) (spacing : Spacing)
  | numSub (n : Nat)
  | numSubs (major minor : List Nat)

/-- The step after one call. -/
def Strat.call (s : Strat K α) : Call K → Py (Strat K α)
  | .const n t => .ok (s.const n t)
  | .numCases n sp => s.setNumCases n sp
  | .numSub n => s.setNumSub n
  | .numSubs a b => s.setNumSubs a b

/-- The step after a chain of calls, `step.f(...).g(...)`: every setter returns the step itself. -/
def Strat.calls (s : Strat K α) : List (Call K) → Py (Strat K α)
  | [] => .ok s
  | c :: cs => do (← s.call c).calls cs

/-! ### Specification -/

/-- The targets that the calls name for a constant, in order. -/
def targetsOf (n : String) (cs : List (Call K)) : List K :=
  cs.filterMap fun | .const m t => if m = n then some t else none | _ => none

/-- The constants that the calls name, in order and with repetitions. -/
def namesOf (cs : List (Call K)) : List String := cs.filterMap fun | .const m _ => some m | _ => none

/-- The numbers of cases with their spacings. -/
def casesOf (cs : List (Call K)) : List (Nat × Spacing) := cs.filterMap fun | .numCases n sp => some (n, sp) | _ => none

/-- The numbers of subdivisions of the product strategy. -/
def subOf (cs : List (Call K)) : List Nat := cs.filterMap fun | .numSub n => some n | _ => none

/-- The numbers of subdivisions of the sparse product strategy. -/
def subsOf (cs : List (Call K)) : List (List Nat × List Nat) := cs.filterMap fun | .numSubs a b => some (a, b) | _ => none

/-- The last entry, or what was there before. -/
def lastOr {β : Type _} (d : β) (l : List β) : β := l.getLast?.getD d

/-! ### Lemmas -/

theorem calls_append (s : Strat K α) (as bs : List (Call K)) : s.calls (as ++ bs) = s.calls as >>= fun s => s.calls bs := by
  induction as generalizing s with
  | nil => rfl
  | cons a as ih =>
    rw [List.cons_append, Strat.calls, Strat.calls]
    cases s.call a with
    | error e => rfl
    | ok s' => exact ih s'

theorem dictSet_lookup {β : Type _} (k : String) (v : β) (l : List (String × β)) (n : String) :
    (dictSet k v l).lookup n = if n = k then some v else l.lookup n := by
  induction l with
  | nil =>
    by_cases h : n = k
    · subst h; simp [dictSet]
    · have : (n == k) = false := by simpa using h
      simp [dictSet, List.lookup, h, this]
  | cons q l ih =>
    obtain ⟨k', v'⟩ := q
    by_cases hk : k' = k
    · subst hk
      by_cases h : n = k'
      · subst h; simp [dictSet]
      · have : (n == k') = false := by simpa using h
        simp [dictSet, List.lookup, h, this]
    · simp only [dictSet, hk, if_false]
      by_cases h : n = k'
      · subst h; simp [hk]
      · have : (n == k') = false := by simpa using h
        simp only [List.lookup, this, ih]

theorem eraseDups_concat (l : List String) (a : String) :
    (l ++ [a]).eraseDups = if a ∈ l then l.eraseDups else l.eraseDups ++ [a] := by
  rw [List.eraseDups_append]
  by_cases h : a ∈ l
  · simp [List.removeAll, h]
  · simp [List.removeAll, h, List.eraseDups_cons]

theorem targets_keys (s : Strat K α) : s.targets.map Prod.fst = s.vars.map Prod.fst := by
  simp [Strat.targets, Function.comp_def]

theorem dictSet_mem {β : Type _} {k : String} {v : β} {l : List (String × β)} {p : String × β} (h : p ∈ dictSet k v l) :
    p = (k, v) ∨ p ∈ l := by
  induction l with
  | nil => simpa [dictSet] using h
  | cons q l ih =>
    obtain ⟨k', v'⟩ := q
    simp only [dictSet] at h
    split at h
    · rcases List.mem_cons.1 h with h | h
      · exact Or.inl h
      · exact Or.inr (List.mem_cons_of_mem _ h)
    · rcases List.mem_cons.1 h with h | h
      · exact Or.inr (h ▸ List.mem_cons_self ..)
      · exact (ih h).imp id (List.mem_cons_of_mem _)

/-! ### C83 -/

/-- C83.  A step that has not run accepts every chain of calls.  Afterwards every constant has the target of the last call that
names it, constants that no call names have none, the constants are kept in the order in which they were first named, the
number of cases, the spacing and the subdivisions are those of the last call that sets them, and nothing else has changed. -/
theorem C83_configured (s0 : Strat K α) (hc : s0.ctr = 0) (hv : s0.vars = []) (cs : List (Call K)) :
    ∃ s, s0.calls cs = .ok s ∧
      (∀ n, s.targets.lookup n = (targetsOf n cs).getLast?) ∧
      s.targets.map Prod.fst = (namesOf cs).eraseDups ∧
      (s.numCases, s.spacing) = lastOr (s0.numCases, s0.spacing) (casesOf cs) ∧
      s.numSub = lastOr s0.numSub (subOf cs) ∧
      (s.major, s.minor) = lastOr (s0.major, s0.minor) (subsOf cs) ∧
      (∀ nv ∈ s.vars, nv.2.value = none ∧ nv.2.steps = []) ∧
      s = { s0 with vars := s.vars, numCases := s.numCases, spacing := s.spacing, numSub := s.numSub, major := s.major,
                    minor := s.minor } := by
  induction cs using List.reverseRecOn with
  | nil =>
    refine ⟨s0, rfl, ?_, ?_, rfl, rfl, rfl, ?_, rfl⟩
    · intro n; simp [Strat.targets, hv, targetsOf]
    · simp [Strat.targets, hv, namesOf]
    · simp [hv]
  | append_singleton cs c ih =>
    obtain ⟨s, h1, h2, h3, h4, h5, h6, h7, h8⟩ := ih
    have hs : s.ctr = 0 := by rw [h8]; exact hc
    have hcall : ∀ s', s.call c = .ok s' → s0.calls (cs ++ [c]) = .ok s' := by
      intro s' h
      rw [calls_append, h1]
      simp [bind, Except.bind, Strat.calls, h]
    cases c with
    | const m t =>
      refine ⟨_, hcall _ rfl, ?_, ?_, ?_, ?_, ?_, ?_, ?_⟩
      · intro n
        rw [targets_lookup]
        simp only [Strat.const, dictSet_lookup, targetsOf, List.filterMap_append, List.filterMap_cons, List.filterMap_nil]
        by_cases hn : n = m
        · subst hn; simp
        · have hn' : ¬ m = n := fun e => hn e.symm
          have := h2 n
          rw [targets_lookup] at this
          simp only [hn, hn', if_false, List.append_nil]
          exact this
      · rw [targets_keys] at h3 ⊢
        simp only [Strat.const, dictSet_keys, namesOf, List.filterMap_append, List.filterMap_cons, List.filterMap_nil]
        rw [eraseDups_concat]
        rw [h3]
        simp only [List.mem_eraseDups, namesOf]
      · simpa [casesOf, Strat.const] using h4
      · simpa [subOf, Strat.const] using h5
      · simpa [subsOf, Strat.const] using h6
      · intro nv hnv
        rcases dictSet_mem hnv with rfl | hnv
        · exact ⟨rfl, rfl⟩
        · exact h7 nv hnv
      · simp only [Strat.const]
        rw [h8]
    | numCases n sp =>
      refine ⟨_, hcall _ (by rw [Strat.call, Strat.setNumCases, if_neg (by omega)]), ?_, ?_, ?_, ?_, ?_, ?_, ?_⟩
      · simpa [targetsOf, Strat.targets] using h2
      · simpa [namesOf, Strat.targets] using h3
      · simp [casesOf, lastOr]
      · simpa [subOf] using h5
      · simpa [subsOf] using h6
      · exact h7
      · simp only
        rw [h8]
    | numSub n =>
      refine ⟨_, hcall _ (by rw [Strat.call, Strat.setNumSub, if_neg (by omega)]), ?_, ?_, ?_, ?_, ?_, ?_, ?_⟩
      · simpa [targetsOf, Strat.targets] using h2
      · simpa [namesOf, Strat.targets] using h3
      · simpa [casesOf] using h4
      · simp [subOf, lastOr]
      · simpa [subsOf] using h6
      · exact h7
      · simp only
        rw [h8]
    | numSubs a b =>
      refine ⟨_, hcall _ (by rw [Strat.call, Strat.setNumSubs, if_neg (by omega)]), ?_, ?_, ?_, ?_, ?_, ?_, ?_⟩
      · simpa [targetsOf, Strat.targets] using h2
      · simpa [namesOf, Strat.targets] using h3
      · simpa [casesOf] using h4
      · simpa [subOf] using h5
      · simp [subsOf, lastOr]
      · exact h7
      · simp only
        rw [h8]

example : ∃ s : Strat ℚ Nat, (Strat.newManual 1).calls [.numCases 11 .linear, .const "v" 1, .const "w" 2, .const "v" 3] = .ok s ∧
    s.targets = [("v", 3), ("w", 2)] ∧ s.numCases = 11 := ⟨_, rfl, rfl, rfl⟩

/-- C83.  While a step runs, its number of cases and its subdivisions cannot be changed: a chain of calls that tries raises
`RuntimeError` and, since nothing is returned, leaves the step as it was. -/
theorem C83_running (s : Strat K α) (hc : 0 < s.ctr) (cs : List (Call K))
    (h : casesOf cs ≠ [] ∨ subOf cs ≠ [] ∨ subsOf cs ≠ []) : s.calls cs = .error .runtimeError := by
  induction cs generalizing s with
  | nil => simp [casesOf, subOf, subsOf] at h
  | cons c cs ih =>
    cases c with
    | const n t => exact ih (s.const n t) hc (by simpa [casesOf, subOf, subsOf] using h)
    | numCases n sp => simp [Strat.calls, Strat.call, Strat.setNumCases, hc, bind, Except.bind]
    | numSub n => simp [Strat.calls, Strat.call, Strat.setNumSub, hc, bind, Except.bind]
    | numSubs a b => simp [Strat.calls, Strat.call, Strat.setNumSubs, hc, bind, Except.bind]

example : ({ kind := .manual, ctr := 1 } : Strat ℚ Nat).calls [.const "v" 1, .numCases 3 .linear] = .error .runtimeError := rfl

/-- C83.  `clear` makes a step ready for new targets, whatever has happened to it: afterwards the only targets are those of the
calls that follow. -/
theorem C83_clear (s0 : Strat K α) (cs : List (Call K)) :
    ∃ s, s0.clear.calls cs = .ok s ∧ ∀ n, s.targets.lookup n = (targetsOf n cs).getLast? := by
  obtain ⟨s, h1, h2, -⟩ := C83_configured s0.clear rfl rfl cs
  exact ⟨s, h1, h2⟩

example : ∃ s : Strat ℚ Nat, Wit.man.clear.calls [.const "v" 1] = .ok s ∧ s.targets = [("v", 1)] := ⟨_, rfl, rfl⟩

end Beluga.Cont
