import Verif.Continuation.Endings

/-! Endpoints of the path, and executions without failures before the last solve. -/

set_option linter.unusedSectionVars false

namespace Beluga.Cont

variable {K : Type _} {α : Type _} [Field K] [LinearOrder K]

theorem Exec.inv {L : LogOps K} {s1 s : Strat K α} {tr : List (Traj K α × Traj K α)} {p : Traj K α × Traj K α}
    (h : Exec L s1 (tr ++ [p]) s) :
    ∃ s2 s', Exec L s1 tr s2 ∧ s2.next L = .ok (p.1, s') ∧ p.2.const = p.1.const ∧ s = s'.addGamma p.2 := by
  generalize htr : tr ++ [p] = tr' at h
  cases h with
  | start => simp at htr
  | step he hn hsol =>
    obtain ⟨rfl, h2⟩ := List.append_inj' htr rfl
    simp only [List.cons.injEq, and_true] at h2
    subst h2
    exact ⟨_, _, he, hn, hsol, rfl⟩

theorem OnPath.unique {L : LogOps K} {sp : Spacing} {names : List String} {targets : List (String × K)}
    {start : List K} {τ : K} {c c' : List K} (hlen : names.length = start.length)
    (h : OnPath L sp names targets start τ c) (h' : OnPath L sp names targets start τ c') : c = c' := by
  apply List.ext_getElem? 
  intro j
  by_cases hj : j < start.length
  · have h1 := h.2 j _ _ (List.getElem?_eq_getElem (hlen ▸ hj)) (List.getElem?_eq_getElem hj)
    have h2 := h'.2 j _ _ (List.getElem?_eq_getElem (hlen ▸ hj)) (List.getElem?_eq_getElem hj)
    rw [h1, h2]
  · rw [List.getElem?_eq_none (by rw [h.1]; omega), List.getElem?_eq_none (by rw [h'.1]; omega)]

theorem OnPath.zero {L : LogOps K} {sp : Spacing} (hL : sp = .log → Lawful L) {names : List String}
    {targets : List (String × K)} {start c : List K} (hlen : names.length = start.length)
    (hp : LogOK sp names targets start)
    (h : OnPath L sp names targets start 0 c) : c = start := by
  apply List.ext_getElem?
  intro j
  by_cases hj : j < start.length
  · have h1 := h.2 j _ _ (List.getElem?_eq_getElem (hlen ▸ hj)) (List.getElem?_eq_getElem hj)
    rw [h1, List.getElem?_eq_getElem hj]
    split
    · next w hw =>
      cases sp with
      | log =>
        have := (hp rfl j _ _ _ (List.getElem?_eq_getElem (hlen ▸ hj)) (List.getElem?_eq_getElem hj) hw).1
        simp [between, (hL rfl).pow_log _ this]
      | linear => simp [between]
      | other => simp [between]
    · rfl
  · rw [List.getElem?_eq_none (by rw [h.1]; omega), List.getElem?_eq_none (by omega)]

theorem OnPath.one {L : LogOps K} {sp : Spacing} (hL : sp = .log → Lawful L) {names : List String}
    {targets : List (String × K)} {start c : List K} (hp : LogOK sp names targets start)
    (h : OnPath L sp names targets start 1 c) : AtTarget names targets start c := by
  refine ⟨h.1, fun j n v hn hv => ?_⟩
  rw [h.2 j n v hn hv]
  cases ht : targets.lookup n with
  | none => rfl
  | some w =>
    cases sp with
    | log => simp [between, (hL rfl).pow_log _ (hp rfl j n v w hn hv ht).2]
    | linear => simp [between]
    | other => simp [between]

section
variable [IsStrictOrderedRing K]

theorem linspace_last_one {N : Nat} (hN : 2 ≤ N) : (linspace (0 : K) 1 N).getLast? = some 1 := by
  have h1 : N - 1 < N := by omega
  rw [List.getLast?_eq_getElem?, length_linspace, linspace_getElem? _ _ _ _ h1]
  have : ((N - 1 : Nat) : K) = (N : K) - 1 := by
    rw [Nat.cast_sub (by omega)]; simp
  have h0 : ((N : K) - 1) ≠ 0 := by
    have : (1 : K) < (N : K) := by exact_mod_cast (by omega : 1 < N)
    linarith
  rw [this]
  congr 1
  field_simp
  ring

/-- When every solve but possibly the last converged, the schedule is the initial one and the guesses follow it. -/
theorem exec_straight {L : LogOps K} {s0 s1 : Strat K α} {sol0 : Traj K α} {names : List String}
    (hs : Starts L s0 sol0 names s1) (hkind : s0.kind = .manual ∨ s0.kind = .bisection)
    (hsp : s0.spacing ≠ .other)
    (hB : s0.kind = .bisection → 1 ≤ s0.numDivisions ∧ (s0.spacing = .log → ∀ x, L.log10 (L.pow10 x) = x))
    {tr : List (Traj K α × Traj K α)} {s : Strat K α} (h : Exec L s1 tr s)
    (hc : ∀ p ∈ tr.dropLast, p.2.converged = true) :
    SInv L s0.spacing names s0.targets sol0.const (linspace (0 : K) 1 s0.numCases).getLast? s0.numCases tr s
      (linspace (0 : K) 1 s0.numCases) ∧ s.ctr = tr.length ∧
    ∀ (i : Nat) (p : Traj K α × Traj K α), tr[i]? = some p → ∃ τ, (linspace (0 : K) 1 s0.numCases)[i]? = some τ ∧
      OnPath L s0.spacing names s0.targets sol0.const τ p.1.const := by
  induction h with
  | start =>
    have h0 := SInv.init hs hkind hsp
    exact ⟨h0, h0.ctr_zero.2 rfl, by simp⟩
  | @step tr s s' g sol he hn hsol ih =>
    rw [List.dropLast_concat] at hc
    obtain ⟨hI, hctr, hall⟩ := ih (fun p hp => hc p (List.dropLast_subset _ hp))
    have hl : tr = [] ∨ ∃ pre p, tr = pre ++ [p] ∧ p.2.converged = true := by
      rcases List.eq_nil_or_concat tr with rfl | ⟨pre, p, rfl⟩
      · exact Or.inl rfl
      · exact Or.inr ⟨pre, p, by simp, hc p (by simp)⟩
    obtain ⟨ts', hI', -, h3⟩ := SInv.step hs hkind hsp hB (sol := sol) (exec_frame hs he).1 hI hn
    obtain ⟨rfl, hctr'⟩ := h3 hl
    have hc' : (s'.addGamma sol).ctr = (tr ++ [(g, sol)]).length := by
      simp [Strat.addGamma, hctr', hctr]
    refine ⟨hI', hc', ?_⟩
    intro i p hp
    by_cases hi : i < tr.length
    · rw [List.getElem?_append_left hi] at hp
      exact hall i p hp
    · rw [List.getElem?_append_right (by omega)] at hp
      have hi' : i = tr.length := by
        by_contra hne
        rw [List.getElem?_eq_none (by simp; omega)] at hp
        cases hp
      subst hi'
      simp at hp
      subst hp
      obtain ⟨τ, h1, h2⟩ := hI'.cur _ _ rfl
      refine ⟨τ, ?_, h2⟩
      rw [hc'] at h1
      simpa using h1

/-- In a manual step only the last solve can have failed. -/
theorem exec_manual_converged {L : LogOps K} {s0 s1 : Strat K α} {sol0 : Traj K α} {names : List String}
    (hs : Starts L s0 sol0 names s1) (hkind : s0.kind = .manual)
    {tr : List (Traj K α × Traj K α)} {s : Strat K α} (h : Exec L s1 tr s) :
    ∀ p ∈ tr.dropLast, p.2.converged = true := by
  induction h with
  | start => simp
  | @step tr s s' g sol he hn hsol ih =>
    rw [List.dropLast_concat]
    have hf := (exec_frame hs he).1
    rw [next_manual (by rw [hf.kind]; exact hkind)] at hn
    obtain ⟨last, i, g0, hl, -, -, -, -, -, -, hc⟩ := baseNext_ok hn
    intro p hp
    rcases hf.last hl with ⟨rfl, -⟩ | ⟨pre, q, rfl, rfl⟩
    · cases hp
    · rw [List.dropLast_concat] at ih
      rcases List.mem_append.1 hp with hp | hp
      · exact ih p hp
      · simp at hp; subst hp
        rcases hc rfl with h | h
        · rw [hf.gammas] at h; simp at h
        · exact h

/-- The counter of a bisection step is one exactly after the first solve. -/
theorem exec_ctr_one {L : LogOps K} {s0 s1 : Strat K α} {sol0 : Traj K α} {names : List String}
    (hs : Starts L s0 sol0 names s1) (hkind : s0.kind = .manual ∨ s0.kind = .bisection)
    (hsp : s0.spacing ≠ .other)
    (hB : s0.kind = .bisection → 1 ≤ s0.numDivisions ∧ (s0.spacing = .log → ∀ x, L.log10 (L.pow10 x) = x))
    {tr : List (Traj K α × Traj K α)} {s : Strat K α} (h : Exec L s1 tr s) :
    s.ctr = 1 ↔ ∃ p, tr = [p] := by
  cases h with
  | start => 
    have h0 := (SInv.init hs hkind hsp).ctr_zero.2 rfl
    simp [h0]
  | @step tr s s' g sol he hn hsol =>
    obtain ⟨ts, hI⟩ := exec_sinv hs hkind hsp hB he
    obtain ⟨ts', hI', h2, h3⟩ := SInv.step hs hkind hsp hB (sol := sol) (exec_frame hs he).1 hI hn
    rcases List.eq_nil_or_concat tr with rfl | ⟨pre, p, rfl⟩
    · have := (h3 (Or.inl rfl)).2
      have h0 := hI.ctr_zero.2 rfl
      simp [Strat.addGamma, this, h0]
    · have hne : s.ctr ≠ 0 := fun h => by simpa using hI.ctr_zero.1 h
      have : s'.ctr ≠ 1 := by
        cases hp : p.2.converged with
        | true =>
          have := (h3 (Or.inr ⟨pre, p, by simp, hp⟩)).2
          omega
        | false =>
          have := h2 ⟨pre, p, by simp, hp⟩
          obtain ⟨h4, -, -, -, -, -, -, h5⟩ := this
          omega
      have hne2 : ∀ q, pre.concat p ++ [(g, sol)] ≠ [q] := by
        intro q h
        have := congrArg List.length h
        simp at this
      simp only [Strat.addGamma, this, hne2, exists_false]

end

end Beluga.Cont
