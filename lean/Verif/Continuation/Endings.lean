import Verif.Continuation.Bisect

/-! How `next` ends: `StopIteration`, errors, and totality; the driver loop as an execution. -/

set_option linter.unusedSectionVars false

namespace Beluga.Cont

variable {K : Type _} {α : Type _} [Field K] [LinearOrder K]

theorem bisectVar_ne_stop {L : LogOps K} {sp : Spacing} {ctr nd : Nat} {v : ContVar K} :
    bisectVar L sp ctr nd v ≠ .error .stopIteration := by
  unfold bisectVar Py.get
  split
  · simp only [bind, Except.bind]
    split
    · next h => split at h <;> simp_all [eq_comm]
    · split
      · next h =>
        cases sp <;> simp [newSteps] at h
        subst h; simp
      · simp
  · simp [bind, Except.bind]

theorem bisectVars_ne_stop {L : LogOps K} {sp : Spacing} {ctr nd : Nat} {vars : List (String × ContVar K)} :
    bisectVars L sp ctr nd vars ≠ .error .stopIteration := by
  induction vars with
  | nil => simp [bisectVars]
  | cons p rest ih =>
    obtain ⟨m, w⟩ := p
    simp only [bisectVars]
    cases h1 : bisectVar L sp ctr nd w with
    | error e =>
      simp only [bind, Except.bind]
      intro h
      cases h
      exact bisectVar_ne_stop h1
    | ok v =>
      simp only [bind, Except.bind]
      cases h2 : bisectVars L sp ctr nd rest with
      | error e =>
        simp only
        intro h
        cases h
        exact ih h2
      | ok r => simp

theorem baseNext_false_last {s : Strat K α} {e : PyErr} (h : s.baseNext false = .error e) (he : e ≠ .runtimeError)
    {last : Traj K α} (hl : s.gammas.getLast? = some last) : s.gammas.length = 1 ∨ last.converged = true := by
  unfold Strat.baseNext at h
  rw [hl] at h
  simp only at h
  split at h
  · cases h; exact absurd rfl he
  · next hc =>
    simp only [true_and, not_and, Bool.not_eq_false] at hc
    by_cases h1 : s.gammas.length = 1
    · exact Or.inl h1
    · exact Or.inr (hc h1)

theorem next_manual {L : LogOps K} {s : Strat K α} (hk : s.kind = .manual) : s.next L = s.baseNext false := by
  unfold Strat.next; split <;> simp_all

theorem next_bisection {L : LogOps K} {s : Strat K α} (hk : s.kind = .bisection) :
    s.next L = s.bisectionNext L := by
  unfold Strat.next; split <;> simp_all

theorem next_product {L : LogOps K} {s : Strat K α} (hk : s.kind = .product ∨ s.kind = .sparse) :
    s.next L = s.productNext := by
  unfold Strat.next; split <;> simp_all

section
variable [IsStrictOrderedRing K]

/-- `StopIteration` from a manual or bisection step: all cases used up and the last one converged. -/
theorem next_stop {L : LogOps K} {s0 s1 : Strat K α} {sol0 : Traj K α} {names : List String}
    (hs : Starts L s0 sol0 names s1) (hkind : s0.kind = .manual ∨ s0.kind = .bisection)
    (hB : s0.kind = .bisection → 1 ≤ s0.numDivisions)
    {e : Option K} {N : Nat} {tr : List (Traj K α × Traj K α)} {s : Strat K α} {ts : List K}
    (hf : Frame L s0 sol0 names tr s) (hI : SInv L s0.spacing names s0.targets sol0.const e N tr s ts)
    (h : s.next L = .error .stopIteration) :
    s.ctr = s.numCases ∧ (tr = [] ∨ ∃ pre p, tr = pre ++ [p] ∧ p.2.converged = true) := by
  have hgl : ∃ last, s.gammas.getLast? = some last := by
    rw [hf.gammas, List.getLast?_cons]; exact ⟨_, rfl⟩
  obtain ⟨last, hl⟩ := hgl
  have hconv : (s.gammas.length = 1 ∨ last.converged = true) →
      (tr = [] ∨ ∃ pre p, tr = pre ++ [p] ∧ p.2.converged = true) := by
    intro h1
    rcases hf.last hl with ⟨rfl, -⟩ | ⟨pre, p, rfl, rfl⟩
    · exact Or.inl rfl
    · rcases h1 with h1 | h1
      · rw [hf.gammas] at h1; simp at h1
      · exact Or.inr ⟨pre, p, rfl, h1⟩
  rw [← hf.kind] at hkind hB
  rcases hkind with hk | hk
  · rw [next_manual hk] at h
    have h1 := baseNext_stop' h
    exact ⟨le_antisymm hI.ctr_le h1, hconv (baseNext_false_last h (by simp) hl)⟩
  · rw [next_bisection hk] at h
    simp only [Strat.bisectionNext] at h
    have hlc : s.lastConverged = .ok last.converged := by simp [Strat.lastConverged, hl]
    by_cases h0 : s.ctr = 0
    · simp only [h0, if_true, bind, Except.bind] at h
      have h1 := baseNext_stop' h
      exact ⟨le_antisymm hI.ctr_le (by simpa [h0] using h1), Or.inl (hI.ctr_zero.1 h0)⟩
    · simp only [if_neg h0, hlc, bind, Except.bind] at h
      cases hc : last.converged with
      | true =>
        rw [hc] at h
        simp only [if_true] at h
        have h1 := baseNext_stop' h
        exact ⟨le_antisymm hI.ctr_le h1, hconv (Or.inr hc)⟩
      | false =>
        rw [hc] at h
        simp only [Bool.false_eq_true, if_false] at h
        split at h
        · cases h
        · split at h
          · cases h
          · next h1 h2 =>
            exfalso
            cases hv : bisectVars L s.spacing s.ctr s.numDivisions s.vars with
            | error e =>
              rw [hv] at h
              simp only at h
              cases h
              exact bisectVars_ne_stop hv
            | ok vars' =>
              rw [hv] at h
              simp only at h
              have h3 := baseNext_stop' h
              simp only at h3
              have := hB hk
              have := hI.ctr_le
              have := hf.nd
              omega

/-- While cases remain and the last solve converged, a manual or bisection step yields the next guess. -/
theorem next_total_converged {L : LogOps K} {s0 s1 : Strat K α} {sol0 : Traj K α} {names : List String}
    (hs : Starts L s0 sol0 names s1) (hkind : s0.kind = .manual ∨ s0.kind = .bisection)
    {e : Option K} {N : Nat} {tr : List (Traj K α × Traj K α)} {s : Strat K α} {ts : List K}
    (hf : Frame L s0 sol0 names tr s) (hI : SInv L s0.spacing names s0.targets sol0.const e N tr s ts)
    (hc : tr = [] ∨ ∃ pre p, tr = pre ++ [p] ∧ p.2.converged = true) :
    (s.ctr < s.numCases → ∃ g s', s.next L = .ok (g, s')) ∧
    (s.ctr = s.numCases → s.next L = .error .stopIteration) := by
  have hgl : ∃ last, s.gammas.getLast? = some last ∧ (s.gammas.length = 1 ∨ last.converged = true) := by
    rcases hc with rfl | ⟨pre, p, rfl, hp⟩
    · refine ⟨{ sol0 with converged := false }, by rw [hf.gammas]; simp, Or.inl (by rw [hf.gammas]; simp)⟩
    · refine ⟨p.2, by rw [hf.gammas]; simp [List.getLast?_cons], Or.inr hp⟩
  obtain ⟨last, hl, hlc⟩ := hgl
  have hlen : s.constNames.length ≤ last.const.length := by
    have := (hf.unch last (List.mem_of_getLast? hl)).1
    rw [this, hf.cn, hs.names_len]
  have hnames : ∀ nv ∈ s.vars, nv.1 ∈ s.constNames := by
    intro nv hnv
    obtain ⟨j, x, hj, -, -⟩ := hI.sched nv hnv
    rw [hf.cn]; exact List.mem_of_getElem? hj
  have hsteps : ∀ nv ∈ s.vars, s.ctr < s.numCases → s.ctr < nv.2.steps.length := by
    intro nv hnv hlt
    obtain ⟨j, x, -, -, hst⟩ := hI.sched nv hnv
    rw [hst, List.length_map, hI.len]; exact hlt
  -- reduce `next` to `baseNext`
  have hred : ∃ d, s.next L = Strat.baseNext { s with divisionCtr := d } false := by
    rw [← hf.kind] at hkind
    rcases hkind with hk | hk
    · exact ⟨s.divisionCtr, next_manual hk⟩
    · refine ⟨0, ?_⟩
      rw [next_bisection hk]
      simp only [Strat.bisectionNext]
      by_cases h0 : s.ctr = 0
      · simp only [if_pos h0, bind, Except.bind, if_true]
      · have hne : tr ≠ [] := fun h => h0 (hI.ctr_zero.2 h)
        have hlast : last.converged = true := by
          rcases hlc with h | h
          · rw [hf.gammas] at h
            simp at h
            exact absurd h hne
          · exact h
        have hlc : s.lastConverged = .ok true := by simp [Strat.lastConverged, hl, hlast]
        simp only [if_neg h0, hlc, bind, Except.bind, if_true]
  obtain ⟨d, hd⟩ := hred
  rw [hd]
  constructor
  · intro hlt
    obtain ⟨g, hg⟩ := baseNext_total (s := { s with divisionCtr := d }) (ign := false) hl (fun _ => hlc) hlt hnames hlen
      (fun nv hnv => hsteps nv hnv hlt)
    exact ⟨g, _, hg⟩
  · intro heq
    unfold Strat.baseNext
    simp only [hl]
    rw [if_neg, if_pos (le_of_eq heq.symm)]
    rintro ⟨-, h2, h3⟩
    rcases hlc with h | h
    · exact h2 h
    · rw [h] at h3; cases h3

/-- After a failure (not of the first case) a bisection step subdivides unless the division counter is used up. -/
theorem next_failed {L : LogOps K} {s0 s1 : Strat K α} {sol0 : Traj K α} {names : List String}
    (hs : Starts L s0 sol0 names s1) (hk0 : s0.kind = .bisection) (hsp : s0.spacing ≠ .other)
    (hnd : 1 ≤ s0.numDivisions) (hL : s0.spacing = .log → ∀ x, L.log10 (L.pow10 x) = x)
    {e : Option K} {N : Nat} {pre : List (Traj K α × Traj K α)} {p : Traj K α × Traj K α} {s : Strat K α} {ts : List K}
    (hf : Frame L s0 sol0 names (pre ++ [p]) s)
    (hI : SInv L s0.spacing names s0.targets sol0.const e N (pre ++ [p]) s ts)
    (hp : p.2.converged = false) :
    (s.ctr = 1 → s.next L = .error .runtimeError) ∧
    (2 ≤ s.ctr → s.maxDivisions < s.divisionCtr → s.next L = .error .runtimeError) ∧
    (2 ≤ s.ctr → s.divisionCtr ≤ s.maxDivisions → ∃ g s', s.next L = .ok (g, s')) := by
  have hl : s.gammas.getLast? = some p.2 := by rw [hf.gammas]; simp [List.getLast?_cons]
  have hk : s.kind = .bisection := by rw [hf.kind]; exact hk0
  have hlc : s.lastConverged = .ok false := by simp [Strat.lastConverged, hl, hp]
  have hlen : s.constNames.length ≤ p.2.const.length := by
    have := (hf.unch p.2 (List.mem_of_getLast? hl)).1
    rw [this, hf.cn, hs.names_len]
  refine ⟨?_, ?_, ?_⟩
  · intro h1
    rw [next_bisection hk]
    simp only [Strat.bisectionNext]
    simp [h1, hlc, bind, Except.bind]
  · intro h2 h3
    have h0 : s.ctr ≠ 0 := by omega
    have h1 : s.ctr ≠ 1 := by omega
    rw [next_bisection hk]
    simp only [Strat.bisectionNext]
    simp [h0, h1, hlc, h3, bind, Except.bind]
  · intro h2 h3
    have h0 : s.ctr ≠ 0 := by omega
    have h1 : s.ctr ≠ 1 := by omega
    have hclen : s.ctr ≤ ts.length := by rw [hI.len]; exact hI.ctr_le
    have hsps : s.spacing ≠ .other := by rw [hf.spacing]; exact hsp
    obtain ⟨vars', hv⟩ := bisectVars_total (L := L) hsps (nd := s.numDivisions) h2 (vars := s.vars) (by
      intro nv hnv
      obtain ⟨j, x, -, -, hst⟩ := hI.sched nv hnv
      rw [hst, List.length_map]; exact hclen)
    obtain ⟨a, ha⟩ : ∃ a, ts[s.ctr - 2]? = some a := ⟨ts[s.ctr - 2]'(by omega), List.getElem?_eq_getElem _⟩
    obtain ⟨b, hbb⟩ : ∃ b, ts[s.ctr - 1]? = some b := ⟨ts[s.ctr - 1]'(by omega), List.getElem?_eq_getElem _⟩
    have hsched' := Sched.bisect (by rw [hf.spacing]; exact hL) hsps (by rw [hf.spacing]; exact hI.sched) ha hbb hv
    have hnds : 1 ≤ s.numDivisions := by rw [hf.nd]; exact hnd
    obtain ⟨g, hg⟩ := baseNext_total (ign := true) (last := p.2)
      (s := { s with
              vars := vars'
              ctr := s.ctr - 1
              numCases := s.numCases + s.numDivisions - 1
              divisionCtr := s.divisionCtr + 1 })
      hl (by simp) (by have := hI.ctr_le; simp only; omega) (by
        intro nv hnv
        obtain ⟨j, x, hj, -, -⟩ := hsched' nv hnv
        simp only
        rw [hf.cn]; exact List.mem_of_getElem? hj) hlen (by
        intro nv hnv
        obtain ⟨j, x, -, -, hst⟩ := hsched' nv hnv
        simp only
        rw [hst, List.length_map, npInsert_length _ _ _ (by omega)]
        omega)
    rw [next_bisection hk]
    simp only [Strat.bisectionNext]
    simp only [if_neg h0, hlc, bind, Except.bind, Bool.false_eq_true, if_false, h1,
      if_neg (show ¬ s.divisionCtr > s.maxDivisions by omega), hv]
    exact ⟨g, _, hg⟩

end

/-! ### the driver loop -/

/-- A solver that solves the problem it is given: the constants are passed through. -/
def KeepsConst (solve : Nat → Traj K α → Py (Traj K α)) : Prop :=
  ∀ n g sol, solve n g = .ok sol → sol.const = g.const

theorem stepLoop_exec {L : LogOps K} {solve : Nat → Traj K α → Py (Traj K α)} (hk : KeepsConst solve)
    {s1 : Strat K α} (fuel : Nat) {s : Strat K α} {n : Nat} {tr : List (Traj K α × Traj K α)}
    (he : Exec L s1 tr s) :
    (∃ s'', Exec L s1 (stepLoop L solve fuel s n tr).trace s'') ∧
    ((stepLoop L solve fuel s n tr).ending = .ended →
      Exec L s1 (stepLoop L solve fuel s n tr).trace (stepLoop L solve fuel s n tr).strat ∧
      (stepLoop L solve fuel s n tr).strat.next L = .error .stopIteration) ∧
    ((∀ p ∈ tr, ∃ n, solve n p.1 = .ok p.2) →
      ∀ p ∈ (stepLoop L solve fuel s n tr).trace, ∃ n, solve n p.1 = .ok p.2) := by
  induction fuel generalizing s n tr with
  | zero => exact ⟨⟨s, he⟩, by simp [stepLoop], fun h => by simpa [stepLoop] using h⟩
  | succ fuel ih =>
    unfold stepLoop
    split
    · next h => exact ⟨⟨s, he⟩, fun _ => ⟨he, h⟩, fun h => h⟩
    · exact ⟨⟨s, he⟩, by simp, fun h => h⟩
    · next g s' hn =>
      split
      · exact ⟨⟨s, he⟩, by simp, fun h => h⟩
      · next sol hsol =>
        have he' := Exec.step he hn (hk n g sol hsol)
        obtain ⟨i1, i2, i3⟩ := ih (n := n + 1) he'
        refine ⟨i1, i2, fun h => i3 ?_⟩
        intro p hp
        rcases List.mem_append.1 hp with hp | hp
        · exact h p hp
        · simp at hp; subst hp; exact ⟨n, hsol⟩

end Beluga.Cont
