import Verif.Continuation.Straight
import Verif.Continuation.RealLog
import Verif.Continuation.Witness

/-!
# Properties C01–C11 (manual and bisection continuation)

`Starts L s0 sol0 names s1`: the step `s0` is initialised from the solution `sol0`.
`Exec L s1 tr s`: an arbitrary history `tr` of (guess, solution) pairs, with an arbitrary solver.
-/

set_option linter.unusedSectionVars false

namespace Beluga.Cont

variable {K : Type _} {α : Type _} [Field K] [LinearOrder K] [IsStrictOrderedRing K]

/-! ## C01 -/

/-- C01.  In a manual step with `N` cases the `i`-th guess has moved every declared constant the fraction
`i/(N-1)` of the way (all in lock step); there are never more than `N` guesses; as long as the solves converge the
next guess is produced until `N` were produced, and then the step ends. -/
theorem C01_manual_schedule {L : LogOps K} {s0 s1 : Strat K α} {sol0 : Traj K α} {names : List String}
    (hs : Starts L s0 sol0 names s1) (hkind : s0.kind = .manual) (hsp : s0.spacing ≠ .other)
    {tr : List (Traj K α × Traj K α)} {s : Strat K α} (h : Exec L s1 tr s) :
    tr.length ≤ s0.numCases ∧
    (∀ (i : Nat) (p : Traj K α × Traj K α), tr[i]? = some p →
      OnPath L s0.spacing names s0.targets sol0.const ((i : K) / ((s0.numCases - 1 : Nat) : K)) p.1.const) ∧
    ((∀ p ∈ tr, p.2.converged = true) →
      (tr.length < s0.numCases → ∃ g s', s.next L = .ok (g, s')) ∧
      (tr.length = s0.numCases → s.next L = .error .stopIteration)) := by
  obtain ⟨hI, hctr, hall⟩ := exec_straight hs (Or.inl hkind) hsp (by simp [hkind]) h
    (exec_manual_converged hs hkind h)
  have hnc : s.numCases = s0.numCases := by rw [← hI.len, length_linspace]
  refine ⟨by rw [← hctr, ← hnc]; exact hI.ctr_le, ?_, ?_⟩
  · intro i p hp
    obtain ⟨τ, hτ, hon⟩ := hall i p hp
    have hi : i < s0.numCases := by
      by_contra hge
      rw [List.getElem?_eq_none (by rw [length_linspace]; omega)] at hτ
      cases hτ
    rw [linspace_getElem? _ _ _ _ hi] at hτ
    cases hτ
    have : (i : K) / ((s0.numCases - 1 : Nat) : K) = 0 + (i : K) * ((1 - 0) / ((s0.numCases - 1 : Nat) : K)) := by
      rw [zero_add, sub_zero, mul_one_div]
    rw [this]; exact hon
  · intro hc
    have hl : tr = [] ∨ ∃ pre p, tr = pre ++ [p] ∧ p.2.converged = true := by
      rcases List.eq_nil_or_concat tr with rfl | ⟨pre, p, rfl⟩
      · exact Or.inl rfl
      · exact Or.inr ⟨pre, p, by simp, hc p (by simp)⟩
    obtain ⟨h1, h2⟩ := next_total_converged hs (Or.inl hkind) (exec_frame hs h).1 hI hl
    exact ⟨fun hlt => h1 (by omega), fun heq => h2 (by omega)⟩

example := C01_manual_schedule Wit.man_starts rfl (by decide) (Wit.run_exec Wit.man Wit.always 10)

/-- C01, end points: the first guess has the starting constants and the `N`-th has every target reached exactly. -/
theorem C01_endpoints {L : LogOps K} {s0 s1 : Strat K α} (hL : s0.spacing = .log → Lawful L) {sol0 : Traj K α} {names : List String}
    (hs : Starts L s0 sol0 names s1) (hkind : s0.kind = .manual) (hsp : s0.spacing ≠ .other)
    (hp : LogOK s0.spacing names s0.targets sol0.const) (hN : 2 ≤ s0.numCases)
    {tr : List (Traj K α × Traj K α)} {s : Strat K α} (h : Exec L s1 tr s) :
    (∀ p, tr[0]? = some p → p.1.const = sol0.const) ∧
    (∀ p, tr[s0.numCases - 1]? = some p → AtTarget names s0.targets sol0.const p.1.const) := by
  obtain ⟨-, h2, -⟩ := C01_manual_schedule hs hkind hsp h
  constructor
  · intro p hp0
    have := h2 0 p hp0
    simp only [Nat.cast_zero, zero_div] at this
    exact this.zero hL hs.names_len hp
  · intro p hpl
    have := h2 _ p hpl
    rw [div_self] at this
    · exact this.one hL hp
    · exact_mod_cast (by omega : s0.numCases - 1 ≠ 0)

example := C01_endpoints (Wit.trivialLog rfl) Wit.man_starts rfl (by decide) (Wit.trivialLogOK rfl) (by decide)
  (Wit.run_exec Wit.man Wit.always 10)

/-- The driver loop on a manual step with a solver that always converges. -/
theorem stepLoop_manual {L : LogOps K} {s0 s1 : Strat K α} {sol0 : Traj K α} {names : List String}
    (hs : Starts L s0 sol0 names s1) (hkind : s0.kind = .manual) (hsp : s0.spacing ≠ .other)
    {solve : Nat → Traj K α → Py (Traj K α)}
    (hsolve : ∀ n g, ∃ sol, solve n g = .ok sol ∧ sol.converged = true ∧ sol.const = g.const)
    (fuel : Nat) {tr : List (Traj K α × Traj K α)} {s : Strat K α} {n : Nat} (h : Exec L s1 tr s)
    (hc : ∀ p ∈ tr, p.2.converged = true) (hfuel : s0.numCases + 1 ≤ tr.length + fuel) :
    (stepLoop L solve fuel s n tr).ending = .ended ∧ (stepLoop L solve fuel s n tr).trace.length = s0.numCases := by
  induction fuel generalizing tr s n with
  | zero =>
    have := (C01_manual_schedule hs hkind hsp h).1
    omega
  | succ fuel ih =>
    obtain ⟨h1, -, h3⟩ := C01_manual_schedule hs hkind hsp h
    obtain ⟨h4, h5⟩ := h3 hc
    by_cases hlt : tr.length < s0.numCases
    · obtain ⟨g, s', hn⟩ := h4 hlt
      obtain ⟨sol, hsol, hconv, hconst⟩ := hsolve n g
      unfold stepLoop
      rw [hn]
      simp only [hsol]
      apply ih (Exec.step h hn hconst)
      · intro p hp
        rcases List.mem_append.1 hp with hp | hp
        · exact hc p hp
        · simp at hp; subst hp; exact hconv
      · simp; omega
    · have heq : tr.length = s0.numCases := by omega
      have hn := h5 heq
      unfold stepLoop
      rw [hn]
      exact ⟨rfl, heq⟩

/-- C01, driver: when every solve converges, the loop over a manual step ends normally after exactly `N` solves. -/
theorem C01_manual_run {L : LogOps K} {s0 s1 : Strat K α} {sol0 : Traj K α} {names : List String}
    (hs : Starts L s0 sol0 names s1) (hkind : s0.kind = .manual) (hsp : s0.spacing ≠ .other)
    {solve : Nat → Traj K α → Py (Traj K α)}
    (hsolve : ∀ n g, ∃ sol, solve n g = .ok sol ∧ sol.converged = true ∧ sol.const = g.const)
    (fuel n : Nat) (hfuel : s0.numCases + 1 ≤ fuel) :
    (stepLoop L solve fuel s1 n []).ending = .ended ∧
    (stepLoop L solve fuel s1 n []).trace.length = s0.numCases :=
  stepLoop_manual hs hkind hsp hsolve fuel Exec.start (by simp) (by simpa using hfuel)

example : (Wit.run Wit.man Wit.always 4).trace.length = 3 :=
  (C01_manual_run Wit.man_starts rfl (by decide) (solve := Wit.okc Wit.always) (fun _ _ => ⟨_, rfl, rfl, rfl⟩) 4 0 (by decide)).2

/-! ## C02 -/

/-- C02 (partial: needs at least two cases, and `num_divisions ≥ 1`).  A manual or bisection step that ends
normally has solved at least one problem and the last one had all constants at their targets.  Missing: with one
case the claim is false, see `C02_violated_one_case`; the product strategies are in `C12`, `C13`. -/
theorem C02_target_reached_partial {L : LogOps K} {s0 s1 : Strat K α} (hL : s0.spacing = .log → Lawful L) {sol0 : Traj K α}
    {names : List String} (hs : Starts L s0 sol0 names s1) (hkind : s0.kind = .manual ∨ s0.kind = .bisection)
    (hsp : s0.spacing ≠ .other) (hp : LogOK s0.spacing names s0.targets sol0.const) (hN : 2 ≤ s0.numCases)
    (hnd : s0.kind = .bisection → 1 ≤ s0.numDivisions)
    {tr : List (Traj K α × Traj K α)} {s : Strat K α} (h : Exec L s1 tr s)
    (hstop : s.next L = .error .stopIteration) :
    ∃ pre p, tr = pre ++ [p] ∧ p.2.converged = true ∧ AtTarget names s0.targets sol0.const p.1.const ∧
      p.2.const = p.1.const := by
  have hB : s0.kind = .bisection → 1 ≤ s0.numDivisions ∧ (s0.spacing = .log → ∀ x, L.log10 (L.pow10 x) = x) :=
    fun hk => ⟨hnd hk, fun h => (hL h).log_pow⟩
  obtain ⟨ts, hI⟩ := exec_sinv hs hkind hsp hB h
  have hf := (exec_frame hs h).1
  obtain ⟨hctr, hl⟩ := next_stop hs hkind hnd hf hI hstop
  have hlen : 2 ≤ s.numCases := by rw [hI.cases_]; omega
  rcases hl with rfl | ⟨pre, p, rfl, hpc⟩
  · have := hI.ctr_zero.2 rfl
    omega
  · obtain ⟨τ, hτ, hon⟩ := hI.cur pre p rfl
    have hlast := hI.last
    rw [linspace_last_one hN, List.getLast?_eq_getElem?, hI.len, ← hctr, hτ] at hlast
    cases hlast
    exact ⟨pre, p, rfl, hpc, hon.one hL hp, hf.same p (by simp)⟩

example := C02_target_reached_partial (Wit.trivialLog rfl) Wit.bis_starts (Or.inr rfl) (by decide)
  (Wit.trivialLogOK rfl) (by decide) (by decide) (Wit.run_exec Wit.bis Wit.fail2 10)
  (Wit.stops_iff (by decide +kernel))

/-- C02 is violated by the default `num_cases = 1` of a manual step: a step with one case that ends normally has
solved exactly one problem, and that problem has the *starting* constants. -/
theorem C02_violated_one_case {L : LogOps K} {s0 s1 : Strat K α} (hL : s0.spacing = .log → Lawful L) {sol0 : Traj K α}
    {names : List String} (hs : Starts L s0 sol0 names s1) (hkind : s0.kind = .manual)
    (hsp : s0.spacing ≠ .other) (hp : LogOK s0.spacing names s0.targets sol0.const) (hN : s0.numCases = 1)
    {tr : List (Traj K α × Traj K α)} {s : Strat K α} (h : Exec L s1 tr s)
    (hstop : s.next L = .error .stopIteration) :
    ∃ p, tr = [p] ∧ p.1.const = sol0.const := by
  obtain ⟨hI, hctr, hall⟩ := exec_straight hs (Or.inl hkind) hsp (by simp [hkind]) h
    (exec_manual_converged hs hkind h)
  have hnc : s.numCases = s0.numCases := by rw [← hI.len, length_linspace]
  obtain ⟨h1, -⟩ := next_stop hs (Or.inl hkind) (by simp [hkind]) (exec_frame hs h).1 hI hstop
  have hlen : tr.length = 1 := by omega
  obtain ⟨p, rfl⟩ := List.length_eq_one_iff.1 hlen
  have := (C01_manual_schedule hs hkind hsp h).2.1 0 p rfl
  simp only [Nat.cast_zero, zero_div] at this
  exact ⟨p, rfl, this.zero hL hs.names_len hp⟩

example : ¬ AtTarget Wit.names Wit.man1.targets Wit.sol.const Wit.sol.const := fun h => by
  have := h.2 0 "a" 0 rfl rfl
  revert this; decide +kernel
example := C02_violated_one_case (Wit.trivialLog rfl) Wit.man1_starts rfl (by decide) (Wit.trivialLogOK rfl) rfl
  (Wit.run_exec Wit.man1 Wit.always 10) (Wit.stops_iff (by decide +kernel))

/-! ## C03 -/

/-- C03.  Whatever strategy and whatever the solver answers, every guess of a step carries the starting value of
every constant that was not declared in the step; so does every solution. -/
theorem C03_undeclared_constants {L : LogOps K} {s0 s1 : Strat K α} {sol0 : Traj K α} {names : List String}
    (hs : Starts L s0 sol0 names s1) {tr : List (Traj K α × Traj K α)} {s : Strat K α} (h : Exec L s1 tr s) :
    ∀ p ∈ tr, Unchanged names s0.targets sol0.const p.1.const ∧
      Unchanged names s0.targets sol0.const p.2.const := by
  obtain ⟨hf, h2⟩ := exec_frame hs h
  intro p hp
  exact ⟨h2 p hp, by rw [hf.same p hp]; exact h2 p hp⟩

example : ∀ p ∈ (Wit.run Wit.man Wit.always 10).trace, p.2.const[1]? = some 5 := fun p hp =>
  (C03_undeclared_constants Wit.man_starts (Wit.run_exec Wit.man Wit.always 10) p hp).2.2 1 "b" rfl rfl

/-! ## C04 -/

/-- C04.  In a manual step all solves before the last one have converged; after a failed solve the next request
raises `RuntimeError`; hence if the step ends normally every recorded solution is converged. -/
theorem C04_manual_stops {L : LogOps K} {s0 s1 : Strat K α} {sol0 : Traj K α} {names : List String}
    (hs : Starts L s0 sol0 names s1) (hkind : s0.kind = .manual)
    {tr : List (Traj K α × Traj K α)} {s : Strat K α} (h : Exec L s1 tr s) :
    (∀ p ∈ tr.dropLast, p.2.converged = true) ∧
    (∀ p ∈ tr, p.2.converged = false → s.next L = .error .runtimeError) ∧
    (s.next L = .error .stopIteration → ∀ p ∈ tr, p.2.converged = true) := by
  have h1 := exec_manual_converged hs hkind h
  have h2 : ∀ p ∈ tr, p.2.converged = false → s.next L = .error .runtimeError := by
    intro p hp hpf
    have hf := (exec_frame hs h).1
    rcases List.eq_nil_or_concat tr with rfl | ⟨pre, q, rfl⟩
    · cases hp
    · simp only [List.concat_eq_append, List.dropLast_concat, List.mem_append, List.mem_singleton] at h1 hp
      rcases hp with hp | rfl
      · rw [h1 p hp] at hpf; cases hpf
      · rw [next_manual (by rw [hf.kind]; exact hkind)]
        unfold Strat.baseNext
        rw [hf.gammas]
        simp [List.getLast?_cons, hpf]
  refine ⟨h1, h2, ?_⟩
  intro hstop p hp
  by_contra hne
  rw [h2 p hp (by simpa using hne)] at hstop
  cases hstop

example : (Wit.run Wit.man Wit.fail2 2).strat.next Wit.idLog = .error .runtimeError :=
  (C04_manual_stops Wit.man_starts rfl (Wit.run_exec Wit.man Wit.fail2 2)).2.1
    ⟨⟨[1/2, 5], true, 1⟩, ⟨[1/2, 5], false, 2⟩⟩ (List.mem_of_getElem? (i := 1) (by decide +kernel)) rfl

/-! ## C05 -/

theorem gammaNorm_eq_dist1 (a b : List K) : gammaNorm a b = dist1 a b := by
  unfold gammaNorm
  induction a generalizing b with
  | nil => simp [dist1]
  | cons x xs ih =>
    cases b with
    | nil => simp [dist1]
    | cons y ys => rw [List.zipWith_cons_cons, List.sum_cons, ih, dist1, abs_sub_comm]

theorem next_baseNext {L : LogOps K} {s s' : Strat K α} {g : Traj K α} (h : s.next L = .ok (g, s')) :
    ∃ s2 ign, Strat.baseNext s2 ign = .ok (g, s') ∧ s2.gammas = s.gammas := by
  unfold Strat.next at h
  split at h
  · exact ⟨s, _, h, rfl⟩
  · simp only [Strat.bisectionNext, Py.bind_ok] at h
    obtain ⟨b, -, h⟩ := h
    split at h
    · exact ⟨_, _, h, rfl⟩
    · split at h
      · cases h
      · split at h
        · cases h
        · simp only [Py.bind_ok] at h
          obtain ⟨v, -, h⟩ := h
          exact ⟨_, _, h, rfl⟩
  all_goals
    simp only [Strat.productNext, Py.bind_ok] at h
    obtain ⟨b, -, h⟩ := h
    split at h
    · exact ⟨_, _, h, rfl⟩
    · split at h
      · cases h
      · exact ⟨_, _, h, rfl⟩

/-- C05 (partial: distances below `9e99`, the code's stand-in for infinity).  The next guess is a copy of an
earlier solution of the step (entry `0` is the solution the step started from, flagged as not converged) with only
the constants replaced.  If some converged solution is nearer than `9e99`, the copied one is converged, no converged
one is nearer in L1 distance, and all strictly earlier converged ones are strictly farther.  If none is converged,
it is the solution the step started from.  What is missing is false: see `C05_violated_far`. -/
theorem C05_nearest_guess_partial {L : LogOps K} {s0 s1 : Strat K α} {sol0 : Traj K α} {names : List String}
    (hs : Starts L s0 sol0 names s1) {tr : List (Traj K α × Traj K α)} {s s' : Strat K α} {g : Traj K α}
    (h : Exec L s1 tr s) (hn : s.next L = .ok (g, s')) :
    ∃ (i : Nat) (q : Traj K α), ({ sol0 with converged := false } :: tr.map Prod.snd)[i]? = some q ∧
      g.data = q.data ∧ g.converged = q.converged ∧
      ((∃ r ∈ tr, r.2.converged = true ∧ dist1 r.2.const g.const < 9 * 10 ^ 99) →
        q.converged = true ∧
        (∀ r ∈ tr, r.2.converged = true → dist1 q.const g.const ≤ dist1 r.2.const g.const) ∧
        (∀ (j : Nat) (r : Traj K α), j < i →
          ({ sol0 with converged := false } :: tr.map Prod.snd)[j]? = some r → r.converged = true →
          dist1 q.const g.const < dist1 r.const g.const)) ∧
      ((∀ r ∈ tr, r.2.converged = false) → i = 0) := by
  obtain ⟨s2, ign, hb, hg2⟩ := next_baseNext hn
  obtain ⟨last, i, q, -, -, -, hmin, hq, hg, -, -⟩ := baseNext_ok hb
  have hf := (exec_frame hs h).1
  rw [hg2, hf.gammas] at hmin hq
  set gs := ({ sol0 with converged := false } :: tr.map Prod.snd : List (Traj K α)) with hgs
  refine ⟨i, q, hq, by rw [hg], by rw [hg], ?_, ?_⟩
  · rintro ⟨r, hr, hrc, hrd⟩
    obtain ⟨v, hv, hle, hlt⟩ := hmin
    have key : ∀ (j : Nat) (t : Traj K α), gs[j]? = some t →
        (norms gs g.const)[j]? = some (if t.converged = false then sentinel else gammaNorm t.const g.const) := by
      intro j t ht
      simp [norms, ht]
    have hvq := hv.symm.trans (key i q hq)
    have hrm : r.2 ∈ gs := by rw [hgs]; exact List.mem_cons_of_mem _ (List.mem_map_of_mem hr)
    obtain ⟨j, hj⟩ := List.getElem?_of_mem hrm
    have hvr := hle j _ (key j _ hj)
    have hsen : (sentinel : K) = 9 * 10 ^ 99 := by rw [sentinel]; push_cast; norm_num
    simp only [hrc, Bool.true_eq_false, if_false, gammaNorm_eq_dist1] at hvr
    have hqc : q.converged = true := by
      by_contra hne
      have hne : q.converged = false := by simpa using hne
      simp only [hne, if_true, Option.some.injEq] at hvq
      rw [hvq, hsen] at hvr
      exact absurd hrd (not_lt.2 hvr)
    simp only [hqc, Bool.true_eq_false, if_false, gammaNorm_eq_dist1, Option.some.injEq] at hvq
    refine ⟨hqc, ?_, ?_⟩
    · intro t ht htc
      have htm : t.2 ∈ gs := by rw [hgs]; exact List.mem_cons_of_mem _ (List.mem_map_of_mem ht)
      obtain ⟨k, hk⟩ := List.getElem?_of_mem htm
      have hvt := hle k _ (key k _ hk)
      simp only [htc, Bool.true_eq_false, if_false, gammaNorm_eq_dist1] at hvt
      rw [← hvq]; exact hvt
    · intro k t hk ht htc
      have hvt := hlt k _ hk (key k t ht)
      simp only [htc, Bool.true_eq_false, if_false, gammaNorm_eq_dist1] at hvt
      rw [← hvq]; exact hvt
  · intro hall
    by_contra hi
    obtain ⟨v, hv, hle, hlt⟩ := hmin
    have hq0 : q.converged = false := by
      rcases i with _ | i
      · exact absurd rfl hi
      · rw [hgs] at hq
        simp only [List.getElem?_cons_succ, List.getElem?_map, Option.map_eq_some_iff] at hq
        obtain ⟨r, hr, rfl⟩ := hq
        exact hall r (List.mem_of_getElem? hr)
    have h1 : (norms gs g.const)[i]? = some sentinel := by
      simp [norms, hq, hq0]
    have h2 : (norms gs g.const)[0]? = some sentinel := by
      simp [norms, hgs]
    have h3 := hlt 0 _ (Nat.pos_of_ne_zero hi) h2
    rw [hv] at h1
    cases h1
    exact lt_irrefl _ h3

example : ∃ g s', (Wit.run Wit.bis Wit.fail2 2).strat.next Wit.idLog = .ok (g, s') :=
  Wit.goesOn_iff (by decide +kernel)
example {g : Traj ℚ Nat} {s' : Strat ℚ Nat} (h : (Wit.run Wit.bis Wit.fail2 2).strat.next Wit.idLog = .ok (g, s')) :=
  C05_nearest_guess_partial Wit.bis_starts (Wit.run_exec Wit.bis Wit.fail2 2) h

/-- A manual step of three cases whose target is `4e100` away. -/
def farStep : Strat ℚ Nat := (Strat.newManual 3).const "a" (4 * 10 ^ 100)

/-- C05 is violated when the converged solutions are `9e99` or more away: the second guess is a copy of the solution
the step started from (payload `0`, flagged not converged) although case 1 has converged (payload `1`). -/
theorem C05_violated_far : Starts Wit.idLog farStep Wit.sol Wit.names (Wit.start farStep) ∧
    (Wit.run farStep Wit.always 10).trace.map (fun p : Traj ℚ Nat × Traj ℚ Nat =>
      (p.1.data, p.1.converged, p.2.converged)) = [(0, false, true), (0, false, true), (0, false, true)] := by
  exact ⟨⟨by decide, by decide, by decide, by decide, rfl⟩, by decide +kernel⟩

/-! ## C06 -/

/-- C06.  After any history of a bisection step there is one increasing list `ts` of fractions from `0` to `1`,
with as many entries as the strategy reports cases, such that the schedule of every declared constant is its value
at these fractions; and every guess ever emitted lies on the path at one of these fractions. -/
theorem C06_bisection_path {L : LogOps K} {s0 s1 : Strat K α} (hL : s0.spacing = .log → Lawful L) {sol0 : Traj K α}
    {names : List String} (hs : Starts L s0 sol0 names s1) (hkind : s0.kind = .bisection)
    (hsp : s0.spacing ≠ .other) (hN : 2 ≤ s0.numCases) (hnd : 1 ≤ s0.numDivisions)
    {tr : List (Traj K α × Traj K α)} {s : Strat K α} (h : Exec L s1 tr s) :
    ∃ ts : List K, ts.Pairwise (· < ·) ∧ ts.head? = some 0 ∧ ts.getLast? = some 1 ∧ ts.length = s.numCases ∧
      (∀ nv ∈ s.vars, ∃ (j : Nat) (v w : K), names[j]? = some nv.1 ∧ sol0.const[j]? = some v ∧
        s0.targets.lookup nv.1 = some w ∧ nv.2.steps = ts.map (between L s0.spacing v w)) ∧
      ∀ p ∈ tr, ∃ τ ∈ ts, 0 ≤ τ ∧ τ ≤ 1 ∧ OnPath L s0.spacing names s0.targets sol0.const τ p.1.const := by
  obtain ⟨ts, hI⟩ := exec_sinv hs (Or.inr hkind) hsp (fun _ => ⟨hnd, fun h => (hL h).log_pow⟩) h
  have hf := (exec_frame hs h).1
  have hlast := hI.last
  rw [linspace_last_one hN] at hlast
  have hne : ts ≠ [] := by rintro rfl; cases hlast
  obtain ⟨x, hx⟩ : ∃ x, ts.head? = some x := by
    cases ts with
    | nil => exact absurd rfl hne
    | cons a l => exact ⟨a, rfl⟩
  have hx0 := hI.head x hx
  subst hx0
  refine ⟨ts, hI.sorted, hx, hlast, hI.len, ?_, ?_⟩
  · intro nv hnv
    obtain ⟨j, v, h1, h2, h3⟩ := hI.sched nv hnv
    refine ⟨j, v, nv.2.target, h1, h2, ?_, h3⟩
    rw [← hf.targets]
    exact lookup_eq_of_mem (by rw [targets_fst]; exact hf.keys hs) (List.mem_map_of_mem hnv)
  · intro p hp
    obtain ⟨τ, hτ, hon⟩ := hI.mem p hp
    refine ⟨τ, hτ, ?_, ?_, hon⟩
    · cases ts with
      | nil => cases hτ
      | cons a l =>
        simp at hx; subst hx
        rcases List.mem_cons.1 hτ with rfl | hm
        · exact le_rfl
        · exact (List.rel_of_pairwise_cons hI.sorted hm).le
    · obtain ⟨l, rfl⟩ := List.getLast?_eq_some_iff.1 hlast
      rcases List.mem_append.1 hτ with hm | hm
      · exact ((List.pairwise_append.1 hI.sorted).2.2 τ hm 1 (by simp)).le
      · simp at hm; exact hm.le

example := C06_bisection_path (Wit.trivialLog rfl) Wit.bis_starts rfl (by decide) (by decide) (by decide)
  (Wit.run_exec Wit.bis Wit.fail2 10)

/-! ## C07 -/

/-- C07.  If a bisection step ends normally, its last solution is converged and was solved at the targets. -/
theorem C07_bisection_end {L : LogOps K} {s0 s1 : Strat K α} (hL : s0.spacing = .log → Lawful L) {sol0 : Traj K α}
    {names : List String} (hs : Starts L s0 sol0 names s1) (hkind : s0.kind = .bisection)
    (hsp : s0.spacing ≠ .other) (hp : LogOK s0.spacing names s0.targets sol0.const) (hN : 2 ≤ s0.numCases)
    (hnd : 1 ≤ s0.numDivisions) {tr : List (Traj K α × Traj K α)} {s : Strat K α} (h : Exec L s1 tr s)
    (hstop : s.next L = .error .stopIteration) :
    ∃ pre p, tr = pre ++ [p] ∧ p.2.converged = true ∧ AtTarget names s0.targets sol0.const p.2.const := by
  obtain ⟨pre, p, h1, h2, h3, h4⟩ :=
    C02_target_reached_partial hL hs (Or.inr hkind) hsp hp hN (fun _ => hnd) h hstop
  exact ⟨pre, p, h1, h2, by rw [h4]; exact h3⟩

example := C07_bisection_end (Wit.trivialLog rfl) Wit.bis_starts rfl (by decide) (Wit.trivialLogOK rfl) (by decide)
  (by decide) (Wit.run_exec Wit.bis Wit.fail2 10) (Wit.stops_iff (by decide +kernel))

/-! ## C08 -/

/-- C08.  After a failure, if a guess is produced at all, it lies on the path at `τ₀ + (τ₁-τ₀)/num_divisions`
where `τ₁` is the position of the failed case and `τ₀ < τ₁` that of the last converged case. -/
theorem C08_subdivision {L : LogOps K} {s0 s1 : Strat K α} (hL : s0.spacing = .log → Lawful L) {sol0 : Traj K α}
    {names : List String} (hs : Starts L s0 sol0 names s1) (hkind : s0.kind = .bisection)
    (hsp : s0.spacing ≠ .other) (hnd : 2 ≤ s0.numDivisions)
    {pre : List (Traj K α × Traj K α)} {q : Traj K α × Traj K α} {s s' : Strat K α} {g : Traj K α}
    (h : Exec L s1 (pre ++ [q]) s) (hq : q.2.converged = false) (hn : s.next L = .ok (g, s')) :
    ∃ a p b τ₀ τ₁, pre = a ++ p :: b ∧ p.2.converged = true ∧ (∀ r ∈ b, r.2.converged = false) ∧
      OnPath L s0.spacing names s0.targets sol0.const τ₀ p.1.const ∧
      OnPath L s0.spacing names s0.targets sol0.const τ₁ q.1.const ∧
      0 ≤ τ₀ ∧ τ₀ < τ₁ ∧ τ₁ ≤ 1 ∧
      OnPath L s0.spacing names s0.targets sol0.const (τ₀ + (τ₁ - τ₀) / (s0.numDivisions : K)) g.const := by
  have hB : s0.kind = .bisection → 1 ≤ s0.numDivisions ∧ (s0.spacing = .log → ∀ x, L.log10 (L.pow10 x) = x) :=
    fun hk => ⟨by omega, fun h => (hL h).log_pow⟩
  obtain ⟨ts, hI⟩ := exec_sinv hs (Or.inr hkind) hsp hB h
  have hf := (exec_frame hs h).1
  obtain ⟨ts', hI', h2, -⟩ := SInv.step hs (Or.inr hkind) hsp hB (sol := g) hf hI hn
  obtain ⟨hctr, τ₀, τ₁, ha, hb, hlt, hts', hctr'⟩ := h2 ⟨pre, q, rfl, hq⟩
  obtain ⟨a, p, b, q', τ, htr, hpc, hbf, hτ, hon⟩ := hI.prev hctr
  obtain ⟨rfl, hqq⟩ := List.append_inj' htr rfl
  cases hqq
  rw [ha] at hτ
  cases hτ
  obtain ⟨τq, hτq, honq⟩ := hI.cur _ _ rfl
  rw [hb] at hτq
  cases hτq
  obtain ⟨τg, hτg, hong⟩ := hI'.cur _ _ rfl
  simp only [Strat.addGamma] at hτg
  rw [hctr', hts'] at hτg
  have hcl : s.ctr ≤ ts.length := by rw [hI.len]; exact hI.ctr_le
  have hint : ((linspace τ₀ τ₁ (s.numDivisions + 1)).tail.dropLast)[0]? =
      some (τ₀ + (τ₁ - τ₀) / (s0.numDivisions : K)) := by
    rw [hf.nd, List.getElem?_dropLast, List.length_tail, length_linspace, if_pos (by omega),
      List.getElem?_tail, linspace_getElem? _ _ _ _ (by omega)]
    simp
  have hnew : (npInsert ts (s.ctr - 1) ((linspace τ₀ τ₁ (s.numDivisions + 1)).tail.dropLast))[s.ctr - 1]? =
      some (τ₀ + (τ₁ - τ₀) / (s0.numDivisions : K)) := by
    unfold npInsert
    have hlen : 0 < ((linspace τ₀ τ₁ (s.numDivisions + 1)).tail.dropLast).length := by
      by_contra hne
      rw [List.getElem?_eq_none (by omega)] at hint
      cases hint
    rw [List.append_assoc, List.getElem?_append_right (by simp), List.getElem?_append_left (by rw [List.length_take]; omega)]
    rw [← hint]
    congr 1
    simp; omega
  rw [hnew] at hτg
  cases hτg
  have hmem0 : ∀ (i : Nat) (x : K), ts[i]? = some x → 0 ≤ x := by
    intro i x hx
    cases ts with
    | nil => simp at hx
    | cons y l =>
      have := hI.head y rfl
      subst this
      rcases List.mem_cons.1 (List.mem_of_getElem? hx) with rfl | hm
      · exact le_rfl
      · exact (List.rel_of_pairwise_cons hI.sorted hm).le
  have hN2 : 2 ≤ s0.numCases := by
    by_contra hlt2
    have hlast := hI.last
    -- with at most one case the schedule is `[0]` or empty, so there are no two entries
    have h1 := hI.sorted
    rcases Nat.lt_or_ge s0.numCases 1 with h0 | h0
    · have : s0.numCases = 0 := by omega
      rw [this] at hlast
      simp [linspace] at hlast
      subst hlast
      simp at ha
    · have : s0.numCases = 1 := by omega
      rw [this] at hlast
      have hl : (linspace (0 : K) 1 1).getLast? = some 0 := by simp [linspace_eq]
      rw [hl] at hlast
      obtain ⟨l, rfl⟩ := List.getLast?_eq_some_iff.1 hlast
      have hb1 := List.mem_of_getElem? hb
      have hle := hmem0 _ _ ha
      rcases List.mem_append.1 hb1 with hm | hm
      · have := (List.pairwise_append.1 h1).2.2 _ hm 0 (by simp)
        linarith
      · simp at hm; subst hm; linarith
  refine ⟨a, p, b, τ₀, τ₁, rfl, hpc, hbf, hon, honq, hmem0 _ _ ha, hlt, ?_, hong⟩
  have hlast := hI.last
  rw [linspace_last_one hN2] at hlast
  obtain ⟨l, rfl⟩ := List.getLast?_eq_some_iff.1 hlast
  rcases List.mem_append.1 (List.mem_of_getElem? hb) with hm | hm
  · exact ((List.pairwise_append.1 hI.sorted).2.2 _ hm 1 (by simp)).le
  · simp at hm; exact hm.le

example : ∃ (pre : List (Traj ℚ Nat × Traj ℚ Nat)) (q : Traj ℚ Nat × Traj ℚ Nat) (s s' : Strat ℚ Nat)
    (g : Traj ℚ Nat), Exec Wit.idLog (Wit.start Wit.bis) (pre ++ [q]) s ∧ q.2.converged = false ∧
      s.next Wit.idLog = .ok (g, s') := by
  obtain ⟨g, s', h⟩ := Wit.goesOn_iff (s := (Wit.run Wit.bis Wit.fail2 2).strat) (by decide +kernel)
  exact ⟨[(⟨[0, 5], false, 0⟩, ⟨[0, 5], true, 1⟩)], (⟨[1, 7], true, 1⟩, ⟨[1, 7], false, 2⟩), _, s', g,
    Wit.run_exec' (by decide +kernel), rfl, h⟩

/-- C08, the failed case is retried: if the step ends normally, every case ever attempted was also solved with
convergence, with the very same constants. -/
theorem C08_retried {L : LogOps K} {s0 s1 : Strat K α} (hL : s0.spacing = .log → Lawful L) {sol0 : Traj K α}
    {names : List String} (hs : Starts L s0 sol0 names s1) (hkind : s0.kind = .bisection)
    (hsp : s0.spacing ≠ .other) (hnd : 1 ≤ s0.numDivisions)
    {tr : List (Traj K α × Traj K α)} {s : Strat K α} (h : Exec L s1 tr s)
    (hstop : s.next L = .error .stopIteration) :
    ∀ p ∈ tr, ∃ q ∈ tr, q.2.converged = true ∧ q.1.const = p.1.const := by
  have hB : s0.kind = .bisection → 1 ≤ s0.numDivisions ∧ (s0.spacing = .log → ∀ x, L.log10 (L.pow10 x) = x) :=
    fun hk => ⟨hnd, fun h => (hL h).log_pow⟩
  obtain ⟨ts, hI⟩ := exec_sinv hs (Or.inr hkind) hsp hB h
  have hf := (exec_frame hs h).1
  obtain ⟨hctr, hl⟩ := next_stop hs (Or.inr hkind) (fun _ => hnd) hf hI hstop
  intro p hp
  obtain ⟨τ, hτ, hon⟩ := hI.mem p hp
  obtain ⟨i, hi⟩ := List.getElem?_of_mem hτ
  have hilt : i < ts.length := by
    by_contra hge
    rw [List.getElem?_eq_none (by omega)] at hi; cases hi
  rw [hI.len] at hilt
  by_cases hi1 : i + 1 < s.ctr
  · obtain ⟨q, hq, hqc, hon'⟩ := hI.done i τ hi1 hi
    exact ⟨q, hq, hqc, hon'.unique hs.names_len hon⟩
  · have hii : i = s.ctr - 1 := by omega
    rcases hl with rfl | ⟨pre, q, rfl, hqc⟩
    · cases hp
    · obtain ⟨τq, hτq, honq⟩ := hI.cur _ _ rfl
      rw [← hii, hi] at hτq
      cases hτq
      exact ⟨q, by simp, hqc, honq.unique hs.names_len hon⟩

example := C08_retried (Wit.trivialLog rfl) Wit.bis_starts rfl (by decide) (by decide)
  (Wit.run_exec Wit.bis Wit.fail2 10) (Wit.stops_iff (by decide +kernel))

/-! ## C09 -/

/-- C09, exactly when bisection gives up: after a failure that is not the first solve of the step, a further
guess is produced iff at most `max_divisions + 1` solves in a row have failed, and otherwise `RuntimeError` is
raised.  So the consecutive subdivisions are bounded, but by `max_divisions + 1` (`_partial`: the listed bound is
`max_divisions`; it is violated, see `C09_violated`). -/
theorem C09_divisions_bounded_partial {L : LogOps K} {s0 s1 : Strat K α} (hL : s0.spacing = .log → Lawful L) {sol0 : Traj K α}
    {names : List String} (hs : Starts L s0 sol0 names s1) (hkind : s0.kind = .bisection)
    (hsp : s0.spacing ≠ .other) (hnd : 1 ≤ s0.numDivisions)
    {tr : List (Traj K α × Traj K α)} {s : Strat K α} (h : Exec L s1 tr s) (hlen : 2 ≤ tr.length)
    (hfail : 1 ≤ trailingFailures tr) :
    (trailingFailures tr ≤ s0.maxDivisions + 1 → ∃ g s', s.next L = .ok (g, s')) ∧
    (s0.maxDivisions + 2 ≤ trailingFailures tr → s.next L = .error .runtimeError) := by
  have hB : s0.kind = .bisection → 1 ≤ s0.numDivisions ∧ (s0.spacing = .log → ∀ x, L.log10 (L.pow10 x) = x) :=
    fun hk => ⟨hnd, fun h => (hL h).log_pow⟩
  obtain ⟨ts, hI⟩ := exec_sinv hs (Or.inr hkind) hsp hB h
  have hf := (exec_frame hs h).1
  have hd := hI.divs (by rw [hf.kind]; exact hkind) hfail
  rcases List.eq_nil_or_concat tr with rfl | ⟨pre, q, rfl⟩
  · simp at hlen
  · simp only [List.concat_eq_append] at *
    have hq : q.2.converged = false := by
      by_contra hne
      have : q.2.converged = true := by simpa using hne
      rw [trailingFailures_append_true _ _ this] at hfail
      omega
    have hc1 : s.ctr ≠ 1 := by
      intro hc
      obtain ⟨p, hp⟩ := (exec_ctr_one hs (Or.inr hkind) hsp hB h).1 hc
      rw [hp] at hlen; simp at hlen
    have hc0 : s.ctr ≠ 0 := fun hc => by simpa using hI.ctr_zero.1 hc
    obtain ⟨-, h2, h3⟩ := next_failed hs hkind hsp hnd (fun h => (hL h).log_pow) hf hI hq
    have hmd := hf.md
    exact ⟨fun h => h3 (by omega) (by omega), fun h => h2 (by omega) (by omega)⟩

example : (Wit.run Wit.bis Wit.only1 4).strat.next Wit.idLog = .error .runtimeError :=
  (C09_divisions_bounded_partial (Wit.trivialLog rfl) Wit.bis_starts rfl (by decide) (by decide)
    (Wit.run_exec Wit.bis Wit.only1 4) (by decide +kernel) (by decide +kernel)).2 (by decide +kernel)

/-- C09: there are never more than `max_divisions + 2` failures in a row. -/
theorem C09_failures_in_a_row {L : LogOps K} {s0 s1 : Strat K α} (hL : s0.spacing = .log → Lawful L) {sol0 : Traj K α}
    {names : List String} (hs : Starts L s0 sol0 names s1) (hkind : s0.kind = .bisection)
    (hsp : s0.spacing ≠ .other) (hnd : 1 ≤ s0.numDivisions)
    {tr : List (Traj K α × Traj K α)} {s : Strat K α} (h : Exec L s1 tr s) :
    trailingFailures tr ≤ s0.maxDivisions + 2 := by
  induction h with
  | start => simp [trailingFailures]
  | @step tr s s' g sol he hn hsol ih =>
    cases hc : sol.converged with
    | true => rw [trailingFailures_append_true _ _ hc]; omega
    | false =>
      rw [trailingFailures_append_false _ _ hc]
      by_contra hlt
      have h2 : s0.maxDivisions + 2 ≤ trailingFailures tr := by omega
      have hlen : 2 ≤ tr.length := by
        have : trailingFailures tr ≤ tr.length := by
          unfold trailingFailures
          exact (List.takeWhile_sublist _).length_le.trans (by simp)
        omega
      rw [(C09_divisions_bounded_partial hL hs hkind hsp hnd he hlen (by omega)).2 h2] at hn
      cases hn

example := C09_failures_in_a_row (Wit.trivialLog rfl) Wit.bis_starts rfl (by decide) (by decide)
  (Wit.run_exec Wit.bis Wit.only1 10)
example : trailingFailures (Wit.run Wit.bis Wit.only1 10).trace = 3 := by decide +kernel

/-- C09 as listed is violated: after `max_divisions + 1` failures in a row – that is, after `max_divisions`
subdivisions without a success – the strategy still subdivides once more. -/
theorem C09_violated {L : LogOps K} {s0 s1 : Strat K α} (hL : s0.spacing = .log → Lawful L) {sol0 : Traj K α}
    {names : List String} (hs : Starts L s0 sol0 names s1) (hkind : s0.kind = .bisection)
    (hsp : s0.spacing ≠ .other) (hnd : 1 ≤ s0.numDivisions)
    {tr : List (Traj K α × Traj K α)} {s : Strat K α} (h : Exec L s1 tr s) (hlen : 2 ≤ tr.length)
    (hfail : trailingFailures tr = s0.maxDivisions + 1) : ∃ g s', s.next L = .ok (g, s') :=
  (C09_divisions_bounded_partial hL hs hkind hsp hnd h hlen (by omega)).1 (by omega)

example := C09_violated (Wit.trivialLog rfl) Wit.bis_starts rfl (by decide) (by decide)
  (Wit.run_exec Wit.bis Wit.only1 3) (by decide +kernel) (by decide +kernel)

/-! ## C10 -/

/-- C10 (partial): the number of solves is bounded by the number of cases plus `num_divisions` per failed solve,
so a bisection step can only run for ever if infinitely many solves fail.  Unconditional termination is false:
see `C10_violated`. -/
theorem C10_solves_bounded_partial {L : LogOps K} {s0 s1 : Strat K α} (hL : s0.spacing = .log → Lawful L) {sol0 : Traj K α}
    {names : List String} (hs : Starts L s0 sol0 names s1) (hkind : s0.kind = .bisection)
    (hsp : s0.spacing ≠ .other) (hnd : 1 ≤ s0.numDivisions)
    {tr : List (Traj K α × Traj K α)} {s : Strat K α} (h : Exec L s1 tr s) :
    tr.length ≤ s0.numCases + failures tr * s0.numDivisions := by
  obtain ⟨ts, hI⟩ := exec_sinv hs (Or.inr hkind) hsp (fun _ => ⟨hnd, fun h => (hL h).log_pow⟩) h
  have hf := (exec_frame hs h).1
  have h1 := hI.count
  have h2 := hI.cases_
  have h3 := hI.ctr_le
  rw [hf.nd] at h2
  have h4 : failures tr.dropLast ≤ failures tr := by
    unfold failures
    exact ((List.dropLast_sublist tr).filter _).length_le
  have h5 : failures tr.dropLast + failures tr.dropLast * (s0.numDivisions - 1)
      = failures tr.dropLast * s0.numDivisions := by
    obtain ⟨m, hm⟩ : ∃ m, s0.numDivisions = m + 1 := ⟨s0.numDivisions - 1, by omega⟩
    rw [hm]; simp; ring
  have h6 : failures tr.dropLast * s0.numDivisions ≤ failures tr * s0.numDivisions :=
    Nat.mul_le_mul_right _ h4
  omega

example := C10_solves_bounded_partial (Wit.trivialLog rfl) Wit.bis_starts rfl (by decide) (by decide)
  (Wit.run_exec Wit.bis Wit.only1 10)

/-- Strict progress: a point at a fraction `τ < 1` of a path that moves is not the target. -/
theorem OnPath.ne_target {L : LogOps K} {sp : Spacing} (hL : sp = .log → Lawful L) {names : List String}
    {targets : List (String × K)} {start c : List K} {τ : K} (hp : LogOK sp names targets start)
    {j : Nat} {n : String} {v w : K} (hn : names[j]? = some n) (hv : start[j]? = some v)
    (hw : targets.lookup n = some w) (hvw : v ≠ w) (hτ : τ < 1) (h : OnPath L sp names targets start τ c) :
    c[j]? ≠ some w := by
  rw [h.2 j n v hn hv, hw]
  simp only [ne_eq, Option.some.injEq]
  have lin : ∀ x y : K, x ≠ y → x + τ * (y - x) ≠ y := by
    intro x y hxy heq
    have : (1 - τ) * (x - y) = 0 := by linear_combination heq
    rcases mul_eq_zero.1 this with h | h
    · linarith
    · exact hxy (sub_eq_zero.1 h)
  cases sp with
  | log =>
    obtain ⟨hv0, hw0⟩ := hp rfl j n v w hn hv hw
    intro heq
    simp only [between] at heq
    apply lin (L.log10 v) (L.log10 w)
    · intro heq2
      apply hvw
      rw [← (hL rfl).pow_log v hv0, ← (hL rfl).pow_log w hw0, heq2]
    · have := congrArg L.log10 heq
      rwa [(hL rfl).log_pow] at this
  | linear => exact lin v w hvw
  | other => exact lin v w hvw

/-- C10 is violated: take any bisection step with at least two cases and `num_divisions ≥ 2` in which constant
`n` (index `j`) really moves, from `v` to `w ≠ v`, and a solver that converges everywhere except where constant `n`
equals `w`.  Then the loop is still running after any number of solves.  (In exact arithmetic; with floats the
subdivision eventually reproduces the target and the run stops with `RuntimeError`.) -/
theorem C10_violated {L : LogOps K} {s0 s1 : Strat K α} (hL : s0.spacing = .log → Lawful L) {sol0 : Traj K α}
    {names : List String} (hs : Starts L s0 sol0 names s1) (hkind : s0.kind = .bisection)
    (hsp : s0.spacing ≠ .other) (hp : LogOK s0.spacing names s0.targets sol0.const) (hN : 2 ≤ s0.numCases)
    (hnd : 2 ≤ s0.numDivisions) {j : Nat} {n : String} {v w : K} (hn : names[j]? = some n)
    (hv : sol0.const[j]? = some v) (hw : s0.targets.lookup n = some w) (hvw : v ≠ w)
    {solve : Nat → Traj K α → Py (Traj K α)}
    (hsolve : ∀ m g, solve m g = .ok { g with converged := decide (g.const[j]? ≠ some w) }) (fuel m : Nat) :
    (stepLoop L solve fuel s1 m []).ending = .running := by
  have hB : s0.kind = .bisection → 1 ≤ s0.numDivisions ∧ (s0.spacing = .log → ∀ x, L.log10 (L.pow10 x) = x) :=
    fun hk => ⟨by omega, fun h => (hL h).log_pow⟩
  have main : ∀ (fuel : Nat) (tr : List (Traj K α × Traj K α)) (s : Strat K α) (m : Nat), Exec L s1 tr s →
      (∀ q ∈ tr, q.2.converged = decide (q.1.const[j]? ≠ some w)) →
      (stepLoop L solve fuel s m tr).ending = .running := by
    intro fuel
    induction fuel with
    | zero => intros; rfl
    | succ fuel ih =>
      intro tr s m he hq
      obtain ⟨ts, hI⟩ := exec_sinv hs (Or.inr hkind) hsp hB he
      have hf := (exec_frame hs he).1
      have hnext : ∃ g s', s.next L = .ok (g, s') := by
        rcases List.eq_nil_or_concat tr with rfl | ⟨pre, q, rfl⟩
        · refine (next_total_converged hs (Or.inr hkind) hf hI (Or.inl rfl)).1 ?_
          rw [hI.ctr_zero.2 rfl, hI.cases_]; omega
        · simp only [List.concat_eq_append] at *
          cases hc : q.2.converged with
          | true =>
            have htot := next_total_converged hs (Or.inr hkind) hf hI (Or.inr ⟨pre, q, rfl, hc⟩)
            rcases Nat.lt_or_ge s.ctr s.numCases with hlt | hge
            · exact htot.1 hlt
            · exfalso
              have hstop := htot.2 (le_antisymm hI.ctr_le hge)
              obtain ⟨pre', p', h1, h2, h3, -⟩ := C02_target_reached_partial hL hs (Or.inr hkind) hsp hp hN
                (fun _ => by omega) he hstop
              obtain ⟨-, h1⟩ := List.append_inj' h1 rfl
              simp only [List.cons.injEq, and_true] at h1
              subst h1
              have h5 := h3.2 j n v hn hv
              rw [hw] at h5
              have := hq q (by simp)
              rw [hc] at this
              simp [h5] at this
          | false =>
            rcases List.eq_nil_or_concat pre with rfl | ⟨pre0, p, rfl⟩
            · -- the first case is at the starting constants, which are not the target
              exfalso
              have h0 := (exec_straight hs (Or.inr hkind) hsp hB he (by simp)).2.2 0 q rfl
              obtain ⟨τ, hτ, hon⟩ := h0
              rw [linspace_getElem? _ _ _ _ (by omega)] at hτ
              simp at hτ
              subst hτ
              have := hon.ne_target hL hp hn hv hw hvw zero_lt_one
              have h6 := hq q (by simp)
              rw [hc] at h6
              simp at h6
              exact this h6
            · simp only [List.concat_eq_append] at *
              have htf : trailingFailures (pre0 ++ [p] ++ [q]) = 1 := by
                rw [trailingFailures_append_false _ _ hc]
                have hpc : p.2.converged = true := by
                  by_contra hne
                  have hpf : p.2.converged = false := by simpa using hne
                  -- two failures in a row: the second one is strictly before the target
                  obtain ⟨sx, sx', he', hn', -, -⟩ := he.inv
                  · obtain ⟨a, p', b, τ₀, τ₁, -, -, -, -, -, -, hlt, hle, hon⟩ := C08_subdivision hL hs hkind hsp hnd he' hpf hn'
                    have hlt1 : τ₀ + (τ₁ - τ₀) / (s0.numDivisions : K) < 1 := by
                      have h2 : (2 : K) ≤ (s0.numDivisions : K) := by exact_mod_cast hnd
                      have h3 : (τ₁ - τ₀) / (s0.numDivisions : K) ≤ (τ₁ - τ₀) / 2 :=
                        div_le_div_of_nonneg_left (by linarith) (by norm_num) h2
                      linarith
                    have h7 := hon.ne_target hL hp hn hv hw hvw hlt1
                    have h8 := hq _ (List.mem_append_right _ (List.mem_singleton.2 rfl))
                    rw [hc] at h8
                    simp at h8
                    exact h7 h8
                rw [trailingFailures_append_true _ _ hpc]
              exact (C09_divisions_bounded_partial hL hs hkind hsp (by omega) he (by simp) (by omega)).1 (by omega)
      obtain ⟨g, s', hn'⟩ := hnext
      unfold stepLoop
      rw [hn']
      simp only [hsolve]
      refine ih _ _ _ (Exec.step he hn' rfl) ?_
      intro r hr
      rcases List.mem_append.1 hr with hr | hr
      · exact hq r hr
      · simp at hr; subst hr; simp
  exact main fuel [] s1 m Exec.start (by simp)

example (fuel : Nat) := C10_violated (Wit.trivialLog rfl) Wit.bis_starts rfl (by decide) (Wit.trivialLogOK rfl)
  (by decide) (by decide) (j := 0) (n := "a") (v := 0) (w := 1) rfl rfl rfl (by decide) (fun _ _ => rfl) fuel 0

/-! ## C11 -/

/-- C11.  In a bisection, productspace or sparse_product step a failing first solve makes the next request raise
`RuntimeError`. -/
theorem C11_first_failure {L : LogOps K} {s0 s1 : Strat K α} {sol0 : Traj K α} {names : List String}
    (hs : Starts L s0 sol0 names s1) (hkind : s0.kind ≠ .manual)
    {p : Traj K α × Traj K α} {s : Strat K α} (h : Exec L s1 [p] s) (hp : p.2.converged = false) :
    s.next L = .error .runtimeError := by
  have hf := (exec_frame hs h).1
  have hlc : s.lastConverged = .ok false := by simp [Strat.lastConverged, hf.gammas, hp]
  have hctr : s.ctr = 1 := by
    generalize htr : [p] = tr at h
    cases h with
    | start => cases htr
    | @step tr' s2 s' g sol he hn hsol =>
      have : tr' = [] := by
        have := congrArg List.length htr
        simp at this
        exact this
      subst this
      generalize htr2 : ([] : List (Traj K α × Traj K α)) = tr2 at he
      cases he with
      | step he2 => simp at htr2
      | start =>
        have h0 : s1.ctr = 0 := (init_ok hs.init).2.2.2.2.1.trans hs.ctr
        have hgo : s1.lastConverged = .ok false ∨ True := Or.inr trivial
        simp only [Strat.addGamma]
        unfold Strat.next at hn
        split at hn
        · have := (baseNext_ok hn)
          obtain ⟨_, _, _, _, _, _, _, _, _, hs', _⟩ := this
          rw [hs']; simp [h0]
        · simp only [Strat.bisectionNext, h0, if_true, bind, Except.bind] at hn
          obtain ⟨_, _, _, _, _, _, _, _, _, hs', _⟩ := baseNext_ok hn
          rw [hs']
        all_goals
          simp only [Strat.productNext, h0, if_true, bind, Except.bind] at hn
          obtain ⟨_, _, _, _, _, _, _, _, _, hs', _⟩ := baseNext_ok hn
          rw [hs']
  cases hk : s0.kind with
  | manual => exact absurd hk hkind
  | bisection =>
    rw [next_bisection (by rw [hf.kind]; exact hk)]
    simp [Strat.bisectionNext, hctr, hlc, bind, Except.bind]
  | product =>
    rw [next_product (by rw [hf.kind]; exact Or.inl hk)]
    simp [Strat.productNext, hctr, hlc, bind, Except.bind]
  | sparse =>
    rw [next_product (by rw [hf.kind]; exact Or.inr hk)]
    simp [Strat.productNext, hctr, hlc, bind, Except.bind]

example : (Wit.run Wit.prod (fun _ => false) 1).strat.next Wit.idLog = .error .runtimeError :=
  C11_first_failure Wit.prod_starts (by decide) (p := (⟨[0, 5], false, 0⟩, ⟨[0, 5], false, 1⟩))
    (Wit.run_exec' (by decide +kernel)) rfl

end Beluga.Cont
