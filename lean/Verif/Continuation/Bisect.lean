import Verif.Continuation.Invariants

/-! The schedule invariant of the manual and bisection strategies. -/

set_option linter.unusedSectionVars false

namespace Beluga.Cont

variable {K : Type _} {α : Type _} [Field K] [LinearOrder K]

theorem trailingFailures_append_true (tr : List (Traj K α × Traj K α)) (p : Traj K α × Traj K α)
    (h : p.2.converged = true) : trailingFailures (tr ++ [p]) = 0 := by
  simp [trailingFailures, h]

theorem trailingFailures_append_false (tr : List (Traj K α × Traj K α)) (p : Traj K α × Traj K α)
    (h : p.2.converged = false) : trailingFailures (tr ++ [p]) = trailingFailures tr + 1 := by
  simp [trailingFailures, h]

theorem failures_append_true (tr : List (Traj K α × Traj K α)) (p : Traj K α × Traj K α)
    (h : p.2.converged = true) : failures (tr ++ [p]) = failures tr := by
  simp [failures, h]

theorem failures_append_false (tr : List (Traj K α × Traj K α)) (p : Traj K α × Traj K α)
    (h : p.2.converged = false) : failures (tr ++ [p]) = failures tr + 1 := by
  simp [failures, h]

/-- The two ways a manual or bisection strategy produces a guess. -/
theorem next_cases {L : LogOps K} {s0 : Strat K α} {sol0 : Traj K α} {names : List String}
    {tr : List (Traj K α × Traj K α)} {s s' : Strat K α} {g : Traj K α}
    (hf : Frame L s0 sol0 names tr s) (hkind : s.kind = .manual ∨ s.kind = .bisection)
    (hctr : s.ctr = 0 ↔ tr = []) (h : s.next L = .ok (g, s')) :
    (∃ d, (s.kind = .bisection → d = 0) ∧ Strat.baseNext { s with divisionCtr := d } false = .ok (g, s') ∧
        (tr = [] ∨ ∃ pre p, tr = pre ++ [p] ∧ p.2.converged = true)) ∨
    (s.kind = .bisection ∧ 2 ≤ s.ctr ∧ s.divisionCtr ≤ s.maxDivisions ∧
      (∃ pre p, tr = pre ++ [p] ∧ p.2.converged = false) ∧
      ∃ vars', bisectVars L s.spacing s.ctr s.numDivisions s.vars = .ok vars' ∧
        Strat.baseNext
          { s with
              vars := vars'
              ctr := s.ctr - 1
              numCases := s.numCases + s.numDivisions - 1
              divisionCtr := s.divisionCtr + 1 } true = .ok (g, s')) := by
  rcases hkind with hk | hk
  · left
    simp only [Strat.next, hk] at h
    refine ⟨s.divisionCtr, by simp [hk], h, ?_⟩
    obtain ⟨last, i, g0, hl, -, -, -, -, -, -, hign⟩ := baseNext_ok h
    rcases hf.last hl with ⟨rfl, -⟩ | ⟨pre, p, rfl, rfl⟩
    · exact Or.inl rfl
    · right
      rcases hign rfl with h1 | h1
      · rw [hf.gammas] at h1; simp at h1
      · exact ⟨pre, p, rfl, h1⟩
  · simp only [Strat.next, hk, Strat.bisectionNext, Py.bind_ok] at h
    obtain ⟨go, hgo, h⟩ := h
    split at h
    · next hgt =>
      left
      refine ⟨0, by simp, ?_, ?_⟩
      · simpa [hk] using h
      · by_cases h0 : s.ctr = 0
        · exact Or.inl (hctr.1 h0)
        · rw [if_neg h0] at hgo
          simp only [Strat.lastConverged] at hgo
          split at hgo
          · cases hgo
          · next last hl =>
            rcases hf.last hl with ⟨rfl, -⟩ | ⟨pre, p, rfl, rfl⟩
            · exact Or.inl rfl
            · simp only [Except.ok.injEq] at hgo
              exact Or.inr ⟨pre, p, rfl, by rw [hgo, hgt]⟩
    · next hgf =>
      split at h
      · cases h
      · split at h
        · cases h
        · next h1 h2 =>
          rw [Py.bind_ok] at h
          obtain ⟨vars', hv, h⟩ := h
          have h0 : s.ctr ≠ 0 := by
            intro h0
            rw [if_pos h0] at hgo
            simp only [Except.ok.injEq] at hgo
            exact hgf hgo.symm
          right
          refine ⟨hk, by omega, by omega, ?_, vars', hv, by simpa [hk] using h⟩
          rw [if_neg h0] at hgo
          simp only [Strat.lastConverged] at hgo
          split at hgo
          · cases hgo
          · next last hl =>
            simp only [Except.ok.injEq] at hgo
            rcases hf.last hl with ⟨rfl, -⟩ | ⟨pre, p, rfl, rfl⟩
            · exact absurd (hctr.2 rfl) h0
            · exact ⟨pre, p, rfl, by rw [hgo]; simpa using hgf⟩

section
variable [IsStrictOrderedRing K]

/-- The invariant: `ts` is the common list of fractions behind the step lists, `e` its (constant) last entry,
`N` the initial number of cases. -/
structure SInv (L : LogOps K) (sp : Spacing) (names : List String) (targets : List (String × K)) (start : List K)
    (e : Option K) (N : Nat) (tr : List (Traj K α × Traj K α)) (s : Strat K α) (ts : List K) : Prop where
  sched : Sched L sp names start s.vars ts
  len : ts.length = s.numCases
  sorted : ts.Pairwise (· < ·)
  head : ∀ x, ts.head? = some x → x = 0
  last : ts.getLast? = e
  ctr_le : s.ctr ≤ s.numCases
  ctr_zero : s.ctr = 0 ↔ tr = []
  cur : ∀ pre p, tr = pre ++ [p] → ∃ τ, ts[s.ctr - 1]? = some τ ∧ OnPath L sp names targets start τ p.1.const
  mem : ∀ p ∈ tr, ∃ τ ∈ ts, OnPath L sp names targets start τ p.1.const
  done : ∀ (i : Nat) (τ : K), i + 1 < s.ctr → ts[i]? = some τ →
    ∃ p ∈ tr, p.2.converged = true ∧ OnPath L sp names targets start τ p.1.const
  prev : 2 ≤ s.ctr → ∃ a p b q τ, tr = a ++ p :: b ++ [q] ∧ p.2.converged = true ∧
    (∀ r ∈ b, r.2.converged = false) ∧ ts[s.ctr - 2]? = some τ ∧ OnPath L sp names targets start τ p.1.const
  divs : s.kind = .bisection → 1 ≤ trailingFailures tr → s.divisionCtr + 1 = trailingFailures tr
  count : s.ctr + failures tr.dropLast = tr.length
  cases_ : s.numCases = N + failures tr.dropLast * (s.numDivisions - 1)

theorem SInv.init {L : LogOps K} {s0 s1 : Strat K α} {sol0 : Traj K α} {names : List String}
    (hs : Starts L s0 sol0 names s1) (hkind : s0.kind = .manual ∨ s0.kind = .bisection)
    (hsp : s0.spacing ≠ .other) :
    SInv L s0.spacing names s0.targets sol0.const (linspace (0 : K) 1 s0.numCases).getLast? s0.numCases [] s1
      (linspace 0 1 s0.numCases) := by
  have h : s0.manualInit L sol0 names = .ok s1 := by
    have := hs.init
    rcases hkind with hk | hk <;> simpa [Strat.init, hk] using this
  simp only [Strat.manualInit, Py.bind_ok] at h
  obtain ⟨vars', hv, hfin⟩ := h
  cases hfin
  have hv' := manualInitVars_ok hv
  refine ⟨?_, by simp [Strat.baseInit], linspace_sorted one_pos _, ?_, rfl, by simp [Strat.baseInit, hs.ctr],
    by simp [Strat.baseInit, hs.ctr], by simp, by simp, by simp [Strat.baseInit, hs.ctr], by simp [Strat.baseInit, hs.ctr],
    by simp [trailingFailures], by simp [Strat.baseInit, hs.ctr, failures], by simp [failures, Strat.baseInit]⟩
  · intro nv hnv
    obtain ⟨a, -, h1, h2, jj, x, h3, h4, h5⟩ := forall₂_mem_right hv' hnv
    refine ⟨jj, x, by rw [h1]; exact h3, h4, ?_⟩
    rw [h5, manualSteps_between L hsp, h2]
  · intro x hx
    rw [List.head?_eq_getElem?] at hx
    have hpos : 0 < s0.numCases := by
      rw [List.getElem?_eq_some_iff] at hx
      obtain ⟨hx, -⟩ := hx
      simpa using hx
    rw [linspace_getElem? _ _ _ _ hpos] at hx
    simpa using hx.symm

theorem npInsert_getElem?_lt {β : Type _} (l : List β) (i k : Nat) (xs : List β) (hk : k < i) (hi : i ≤ l.length) :
    (npInsert l i xs)[k]? = l[k]? := by
  simp only [npInsert, List.append_assoc]
  rw [List.getElem?_append_left (by simp; omega), List.getElem?_take_of_lt hk]

theorem npInsert_mem {β : Type _} (l : List β) (i : Nat) (xs : List β) (x : β) (hx : x ∈ l) :
    x ∈ npInsert l i xs := by
  simp only [npInsert, List.mem_append]
  rw [← List.take_append_drop i l, List.mem_append] at hx
  tauto

theorem npInsert_getLast? {β : Type _} (l : List β) (i : Nat) (xs : List β) (hi : i < l.length) :
    (npInsert l i xs).getLast? = l.getLast? := by
  simp only [npInsert]
  have hne : l.drop i ≠ [] := by simpa using hi
  rw [List.getLast?_append_of_ne_nil _ hne]
  conv_rhs => rw [← List.take_append_drop i l]
  rw [List.getLast?_append_of_ne_nil _ hne]

theorem npInsert_length {β : Type _} (l : List β) (i : Nat) (xs : List β) (hi : i ≤ l.length) :
    (npInsert l i xs).length = l.length + xs.length := by
  simp only [npInsert, List.length_append, List.length_take, List.length_drop]; omega

theorem interior_length (a b : K) (nd : Nat) :
    ((linspace a b (nd + 1)).tail.dropLast).length = nd - 1 := by simp

/-- The step lists after a subdivision come from the subdivided list of fractions. -/
theorem Sched.bisect {L : LogOps K} {sp : Spacing} (hL : sp = .log → ∀ x, L.log10 (L.pow10 x) = x)
    (hsp : sp ≠ .other)
    {names : List String} {start : List K} {vars vars' : List (String × ContVar K)} {ts : List K}
    (hs : Sched L sp names start vars ts) {ctr nd : Nat} {a b : K}
    (ha : ts[ctr - 2]? = some a) (hb : ts[ctr - 1]? = some b)
    (h : bisectVars L sp ctr nd vars = .ok vars') :
    Sched L sp names start vars' (npInsert ts (ctr - 1) ((linspace a b (nd + 1)).tail.dropLast)) := by
  intro nv hnv
  obtain ⟨p, hp, h1, h2⟩ := forall₂_mem_right (bisectVars_ok h) hnv
  obtain ⟨j, x, hj, hx, hst⟩ := hs p hp
  obtain ⟨a', b', new, ha', hb', hnew, hv⟩ := bisectVar_ok h2
  refine ⟨j, x, by rw [h1]; exact hj, hx, ?_⟩
  rw [hst] at ha' hb'
  simp only [List.getElem?_map, ha, hb, Option.map_some, Option.some.injEq] at ha' hb'
  rw [← ha', ← hb', newSteps_between hL hsp] at hnew
  simp only [Except.ok.injEq] at hnew
  rw [hv, ← hnew]
  simp only [hst]
  rw [npInsert_map]

theorem SInv.step {L : LogOps K} {s0 s1 : Strat K α} {sol0 : Traj K α}
    {names : List String}
    (hs : Starts L s0 sol0 names s1) (hkind : s0.kind = .manual ∨ s0.kind = .bisection)
    (hsp : s0.spacing ≠ .other)
    (hB : s0.kind = .bisection → 1 ≤ s0.numDivisions ∧ (s0.spacing = .log → ∀ x, L.log10 (L.pow10 x) = x)) {e : Option K} {N : Nat}
    {tr : List (Traj K α × Traj K α)} {s s' : Strat K α} {ts : List K} {g sol : Traj K α}
    (hf : Frame L s0 sol0 names tr s)
    (hI : SInv L s0.spacing names s0.targets sol0.const e N tr s ts)
    (hn : s.next L = .ok (g, s')) :
    ∃ ts', SInv L s0.spacing names s0.targets sol0.const e N (tr ++ [(g, sol)]) (s'.addGamma sol) ts' ∧
      ((∃ pre p, tr = pre ++ [p] ∧ p.2.converged = false) → 2 ≤ s.ctr ∧
        ∃ a b : K, ts[s.ctr - 2]? = some a ∧ ts[s.ctr - 1]? = some b ∧ a < b ∧
          ts' = npInsert ts (s.ctr - 1) ((linspace a b (s.numDivisions + 1)).tail.dropLast) ∧
          s'.ctr = s.ctr) ∧
      ((tr = [] ∨ ∃ pre p, tr = pre ++ [p] ∧ p.2.converged = true) → ts' = ts ∧ s'.ctr = s.ctr + 1) := by
  have hkind' : s.kind = .manual ∨ s.kind = .bisection := by rw [hf.kind]; exact hkind
  rcases next_cases hf hkind' hI.ctr_zero hn with ⟨d, hd, hb, hcase⟩ | ⟨hk, h2, hdm, ⟨pre, p, rfl, hpf⟩, vars', hv, hb⟩
  · -- the next case of the schedule
    obtain ⟨last, i, g0, hl, hctr, happ, -, -, -, hs', -⟩ := baseNext_ok hb
    simp only at hl hctr happ
    obtain ⟨τ, hτ⟩ : ∃ τ, ts[s.ctr]? = some τ :=
      ⟨ts[s.ctr]'(by rw [hI.len]; exact hctr), List.getElem?_eq_getElem _⟩
    have hT : s.vars.map (fun nv => (nv.1, nv.2.target)) = s0.targets := hf.targets
    have hlu := hf.unch last (List.mem_of_getLast? hl)
    rw [← hT] at hlu
    rw [hf.cn] at happ
    have hon := onPath_of_applyVars hs.names_nodup (hf.keys hs) hI.sched hτ hlu happ
    rw [hT] at hon
    subst hs'
    have hfail : failures (tr ++ [(g, sol)]).dropLast = failures tr.dropLast := by
      rw [List.dropLast_concat]
      rcases hcase with rfl | ⟨pre, p, rfl, hp⟩
      · rfl
      · rw [failures_append_true _ _ hp, List.dropLast_concat]
    refine ⟨ts, ⟨hI.sched, hI.len, hI.sorted, hI.head, hI.last, hctr, ?_, ?_, ?_, ?_, ?_, ?_, ?_, ?_⟩, ?_, ?_⟩
    · simp [Strat.addGamma]
    · intro pre' p' hp'
      obtain ⟨-, hp'⟩ := List.append_inj' hp' rfl
      cases hp'
      exact ⟨τ, by simpa [Strat.addGamma] using hτ, hon⟩
    · intro p hp
      rcases List.mem_append.1 hp with hp | hp
      · exact hI.mem p hp
      · simp at hp; subst hp; exact ⟨τ, List.mem_of_getElem? hτ, hon⟩
    · intro k σ hk hσ
      simp only [Strat.addGamma] at hk
      rcases Nat.lt_or_ge (k + 1) s.ctr with h | h
      · obtain ⟨p, hp, h1, h2⟩ := hI.done k σ h hσ
        exact ⟨p, List.mem_append_left _ hp, h1, h2⟩
      · have hkc : k = s.ctr - 1 := by omega
        have htr : tr ≠ [] := by
          intro h0
          have := hI.ctr_zero.2 h0
          omega
        rcases hcase with h0 | ⟨pre, p, rfl, hp⟩
        · exact absurd h0 htr
        · obtain ⟨σ', hσ', hon'⟩ := hI.cur pre p rfl
          rw [hkc] at hσ
          rw [hσ] at hσ'
          cases hσ'
          exact ⟨p, by simp, hp, hon'⟩
    · intro h2
      simp only [Strat.addGamma] at h2
      have htr : tr ≠ [] := by
        intro h0
        have := hI.ctr_zero.2 h0
        omega
      rcases hcase with h0 | ⟨pre, p, rfl, hp⟩
      · exact absurd h0 htr
      · obtain ⟨σ', hσ', hon'⟩ := hI.cur pre p rfl
        exact ⟨pre, p, [], (g, sol), σ', by simp, hp, by simp, by simpa [Strat.addGamma] using hσ', hon'⟩
    · intro hk h1
      simp only [Strat.addGamma] at hk ⊢
      have hd0 := hd hk
      subst hd0
      cases hc : sol.converged with
      | true => rw [trailingFailures_append_true _ _ hc] at h1; omega
      | false =>
        rw [trailingFailures_append_false _ _ hc]
        rcases hcase with rfl | ⟨pre, p, rfl, hp⟩
        · rfl
        · rw [trailingFailures_append_true _ _ hp]
    · simp only [Strat.addGamma]
      rw [hfail]
      have := hI.count
      simp only [List.length_append, List.length_singleton]; omega
    · rw [hfail]; exact hI.cases_
    · rintro ⟨pre, p, rfl, hp⟩
      rcases hcase with h0 | ⟨pre', p', h, hp'⟩
      · simp at h0
      · obtain ⟨-, h⟩ := List.append_inj' h rfl
        cases h
        rw [hp] at hp'; cases hp'
    · intro _; exact ⟨rfl, rfl⟩
  · -- a subdivision
    obtain ⟨last, i, g0, hl, hctr, happ, -, -, -, hs', -⟩ := baseNext_ok hb
    simp only at hl hctr happ
    obtain ⟨hnd, hL⟩ := hB (hf.kind ▸ hk)
    have hsps : s.spacing ≠ .other := by rw [hf.spacing]; exact hsp
    have hclen : s.ctr ≤ ts.length := by rw [hI.len]; exact hI.ctr_le
    obtain ⟨a, ha⟩ : ∃ a, ts[s.ctr - 2]? = some a := ⟨ts[s.ctr - 2]'(by omega), List.getElem?_eq_getElem _⟩
    obtain ⟨b, hbb⟩ : ∃ b, ts[s.ctr - 1]? = some b := ⟨ts[s.ctr - 1]'(by omega), List.getElem?_eq_getElem _⟩
    have hab : a < b := by
      rw [List.getElem?_eq_getElem (by omega)] at ha hbb
      simp only [Option.some.injEq] at ha hbb
      rw [← ha, ← hbb]
      exact List.pairwise_iff_getElem.1 hI.sorted _ _ _ _ (by omega)
    have hnds : 1 ≤ s.numDivisions := by rw [hf.nd]; exact hnd
    have hsched' : Sched L s.spacing names sol0.const vars'
        (npInsert ts (s.ctr - 1) ((linspace a b (s.numDivisions + 1)).tail.dropLast)) :=
      Sched.bisect (by rw [hf.spacing]; exact hL) hsps (by rw [hf.spacing]; exact hI.sched) ha hbb hv
    have hilen := interior_length a b s.numDivisions
    generalize hnew : (linspace a b (s.numDivisions + 1)).tail.dropLast = new at hsched' hilen
    have hpw := interior_between hab s.numDivisions hnds
    rw [hnew] at hpw
    have hlen' := npInsert_length ts (s.ctr - 1) new (by omega)
    have hc12 : s.ctr - 1 = (s.ctr - 2) + 1 := by omega
    have hsorted' : (npInsert ts (s.ctr - 1) new).Pairwise (· < ·) := by
      rw [hc12] at hbb ⊢
      exact npInsert_sorted hI.sorted ha hbb hpw
    have htgt : vars'.map (fun nv => (nv.1, nv.2.target)) = s0.targets :=
      (forall₂_keys (bisectVars_ok hv)).trans hf.targets
    have hkeys' : (vars'.map Prod.fst).Nodup := by
      have : vars'.map Prod.fst = s0.targets.map Prod.fst := by rw [← htgt]; simp [Function.comp_def]
      rw [this, targets_fst]; exact hs.keys
    obtain ⟨τ, hτ⟩ : ∃ τ, (npInsert ts (s.ctr - 1) new)[s.ctr - 1]? = some τ :=
      ⟨_, List.getElem?_eq_getElem (by omega)⟩
    have hlu := hf.unch last (List.mem_of_getLast? hl)
    rw [← htgt] at hlu
    rw [hf.cn] at happ
    have hon := onPath_of_applyVars hs.names_nodup hkeys' hsched' hτ hlu happ
    rw [htgt, hf.spacing] at hon
    subst hs'
    have hfail : failures (pre ++ [p] ++ [(g, sol)]).dropLast = failures (pre ++ [p]).dropLast + 1 := by
      rw [List.dropLast_concat, failures_append_false _ _ hpf, List.dropLast_concat]
    refine ⟨npInsert ts (s.ctr - 1) new, ⟨?_, ?_, hsorted', ?_, ?_, ?_, ?_, ?_, ?_, ?_, ?_, ?_, ?_, ?_⟩, ?_, ?_⟩
    · rw [← hf.spacing]; exact hsched'
    · simp only [Strat.addGamma]; rw [hlen', hI.len, hilen]; omega
    · intro x hx
      rw [List.head?_eq_getElem?, npInsert_getElem?_lt _ _ _ _ (by omega) (by omega), ← List.head?_eq_getElem?] at hx
      exact hI.head x hx
    · rw [npInsert_getLast? _ _ _ (by omega)]; exact hI.last
    · simp only [Strat.addGamma]; have := hI.ctr_le; omega
    · simp only [Strat.addGamma]; simp
    · intro pre' p' hp'
      obtain ⟨-, hp'⟩ := List.append_inj' hp' rfl
      cases hp'
      exact ⟨τ, by simpa [Strat.addGamma] using hτ, hon⟩
    · intro q hq
      rcases List.mem_append.1 hq with hq | hq
      · obtain ⟨σ, hσ, h⟩ := hI.mem q hq
        exact ⟨σ, npInsert_mem _ _ _ _ hσ, h⟩
      · simp at hq; subst hq; exact ⟨τ, List.mem_of_getElem? hτ, hon⟩
    · intro k σ hk hσ
      simp only [Strat.addGamma] at hk
      rw [npInsert_getElem?_lt _ _ _ _ (by omega) (by omega)] at hσ
      obtain ⟨q, hq, h1, h2⟩ := hI.done k σ (by omega) hσ
      exact ⟨q, List.mem_append_left _ hq, h1, h2⟩
    · intro _
      obtain ⟨A, P, B, Q, σ, htr, h1, h2', h3, h4⟩ := hI.prev h2
      have hQ : Q = p := by
        obtain ⟨-, h⟩ := List.append_inj' htr rfl
        cases h; rfl
      refine ⟨A, P, B ++ [Q], (g, sol), σ, by rw [htr]; simp, h1, ?_, ?_, h4⟩
      · intro r hr
        rcases List.mem_append.1 hr with hr | hr
        · exact h2' r hr
        · simp at hr; subst hr; rw [hQ]; exact hpf
      · simp only [Strat.addGamma]
        rw [npInsert_getElem?_lt _ _ _ _ (by omega) (by omega)]
        rw [show s.ctr - 1 + 1 - 2 = s.ctr - 2 by omega]; exact h3
    · intro hk' h1
      simp only [Strat.addGamma]
      have h0 := hI.divs hk (by rw [trailingFailures_append_false _ _ hpf]; omega)
      cases hc : sol.converged with
      | true => rw [trailingFailures_append_true _ _ hc] at h1; omega
      | false => rw [trailingFailures_append_false _ _ hc]; omega
    · simp only [Strat.addGamma]
      rw [hfail]
      have := hI.count
      simp only [List.length_append, List.length_singleton] at this ⊢; omega
    · simp only [Strat.addGamma]
      rw [hfail, hI.cases_]
      obtain ⟨m, hm⟩ : ∃ m, s.numDivisions = m + 1 := ⟨s.numDivisions - 1, by omega⟩
      rw [hm]
      simp only [Nat.add_one_sub_one]
      ring_nf
      omega
    · intro _
      refine ⟨h2, a, b, ha, hbb, hab, by rw [hnew], ?_⟩
      simp only; omega
    · rintro (h0 | ⟨pre', p', h, hp'⟩)
      · simp at h0
      · obtain ⟨-, h⟩ := List.append_inj' h rfl
        cases h
        rw [hpf] at hp'; cases hp'

theorem exec_sinv {L : LogOps K} {s0 s1 : Strat K α} {sol0 : Traj K α}
    {names : List String}
    (hs : Starts L s0 sol0 names s1) (hkind : s0.kind = .manual ∨ s0.kind = .bisection)
    (hsp : s0.spacing ≠ .other)
    (hB : s0.kind = .bisection → 1 ≤ s0.numDivisions ∧ (s0.spacing = .log → ∀ x, L.log10 (L.pow10 x) = x))
    {tr : List (Traj K α × Traj K α)} {s : Strat K α} (h : Exec L s1 tr s) :
    ∃ ts, SInv L s0.spacing names s0.targets sol0.const (linspace (0 : K) 1 s0.numCases).getLast? s0.numCases tr s
      ts := by
  induction h with
  | start => exact ⟨_, SInv.init hs hkind hsp⟩
  | step he hn hsol ih =>
    obtain ⟨ts, hI⟩ := ih
    obtain ⟨ts', hI', -⟩ := SInv.step hs hkind hsp hB (exec_frame hs he).1 hI hn
    exact ⟨ts', hI'⟩

end

end Beluga.Cont
