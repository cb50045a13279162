import Verif.PyLemmas
import Verif.Continuation.Spec

/-! Helper lemmas for the continuation properties. -/

set_option linter.unusedSectionVars false

namespace Beluga.Cont

variable {K : Type _} {α : Type _}

/-! ### association lists -/

theorem lookup_isSome_iff {β : Type _} (l : List (String × β)) (n : String) :
    (l.lookup n).isSome ↔ n ∈ l.map Prod.fst := by
  induction l with
  | nil => simp
  | cons p l ih =>
    obtain ⟨k, v⟩ := p
    by_cases h : n = k
    · subst h; simp [List.lookup]
    · have : (n == k) = false := by simpa using h
      simp [List.lookup, this, ih, h]

theorem lookup_none_iff {β : Type _} (l : List (String × β)) (n : String) :
    l.lookup n = none ↔ n ∉ l.map Prod.fst := by
  rw [← lookup_isSome_iff]
  cases l.lookup n <;> simp

theorem lookup_eq_of_mem {β : Type _} {l : List (String × β)} (hl : (l.map Prod.fst).Nodup) {n : String} {v : β}
    (h : (n, v) ∈ l) : l.lookup n = some v := by
  induction l with
  | nil => simp at h
  | cons p l ih =>
    obtain ⟨k, w⟩ := p
    simp only [List.map_cons, List.nodup_cons] at hl
    rcases List.mem_cons.1 h with h | h
    · cases h; simp [List.lookup]
    · have hne : n ≠ k := by
        intro hnk
        exact hl.1 (List.mem_map.2 ⟨(n, v), h, hnk⟩)
      have : (n == k) = false := by simpa using hne
      simp [List.lookup, this, ih hl.2 h]

theorem mem_of_lookup {β : Type _} {l : List (String × β)} {n : String} {v : β} (h : l.lookup n = some v) :
    (n, v) ∈ l := by
  induction l with
  | nil => simp at h
  | cons p l ih =>
    obtain ⟨k, w⟩ := p
    by_cases hk : n = k
    · subst hk
      simp [List.lookup] at h
      simp [h]
    · have : (n == k) = false := by simpa using hk
      simp [List.lookup, this] at h
      exact List.mem_cons_of_mem _ (ih h)

theorem lookup_map_val {β γ : Type _} (f : β → γ) (l : List (String × β)) (n : String) :
    (l.map fun p => (p.1, f p.2)).lookup n = (l.lookup n).map f := by
  induction l with
  | nil => rfl
  | cons p l ih =>
    obtain ⟨k, v⟩ := p
    by_cases h : n = k
    · subst h; simp [List.lookup]
    · have : (n == k) = false := by simpa using h
      simp [List.lookup, this, ih]

theorem targets_lookup (s : Strat K α) (n : String) :
    s.targets.lookup n = (s.vars.lookup n).map ContVar.target :=
  lookup_map_val _ _ _

theorem targets_fst (s : Strat K α) : s.targets.map Prod.fst = s.vars.map Prod.fst := by
  simp [Strat.targets, Function.comp_def]

theorem dictSet_keys {β : Type _} (k : String) (v : β) (l : List (String × β)) :
    (dictSet k v l).map Prod.fst = if k ∈ l.map Prod.fst then l.map Prod.fst else l.map Prod.fst ++ [k] := by
  induction l with
  | nil => simp [dictSet]
  | cons p l ih =>
    obtain ⟨k', v'⟩ := p
    by_cases h : k' = k
    · subst h; simp [dictSet]
    · have h' : ¬ k = k' := fun e => h e.symm
      simp only [dictSet, h, if_false, List.map_cons, ih, List.mem_cons, h', false_or]
      split <;> simp

theorem dictSet_nodup {β : Type _} (k : String) (v : β) {l : List (String × β)} (hl : (l.map Prod.fst).Nodup) :
    ((dictSet k v l).map Prod.fst).Nodup := by
  rw [dictSet_keys]
  split
  · exact hl
  · next h => exact List.Nodup.append hl (by simp) (by simpa using h)

/-- What the builder calls guarantee. -/
theorem Built.props {s : Strat K α} (h : Built s) :
    (s.vars.map Prod.fst).Nodup ∧ s.ctr = 0 ∧ s.gammas = [] ∧ ∀ nv ∈ s.vars, nv.2.steps = [] := by
  induction h with
  | manual => simp [Strat.newManual]
  | bisection => simp [Strat.newBisection]
  | product => simp [Strat.newProduct]
  | sparse => simp [Strat.newSparse]
  | const n t _ ih =>
    obtain ⟨h1, h2, h3, h4⟩ := ih
    refine ⟨dictSet_nodup _ _ h1, h2, h3, ?_⟩
    intro nv hnv
    have key : ∀ (l : List (String × ContVar K)), (∀ p ∈ l, p.2.steps = []) →
        ∀ p ∈ dictSet n ({ target := t } : ContVar K) l, p.2.steps = [] := by
      intro l
      induction l with
      | nil => intro _ p hp; simp [dictSet] at hp; subst hp; rfl
      | cons q l ih =>
        intro hl p hp
        obtain ⟨k', v'⟩ := q
        simp only [dictSet] at hp
        split at hp
        · rcases List.mem_cons.1 hp with rfl | hp
          · rfl
          · exact hl p (List.mem_cons_of_mem _ hp)
        · rcases List.mem_cons.1 hp with rfl | hp
          · exact hl _ (List.mem_cons_self ..)
          · exact ih (fun p hp => hl p (List.mem_cons_of_mem _ hp)) p hp
    exact key _ h4 nv hnv
  | numCases n sp _ h ih =>
    simp only [Strat.setNumCases] at h
    split at h
    · cases h
    · cases h; exact ih
  | numSub n _ h ih =>
    simp only [Strat.setNumSub] at h
    split at h
    · cases h
    · cases h; exact ih
  | numSubs a b _ h ih =>
    simp only [Strat.setNumSubs] at h
    split at h
    · cases h
    · cases h; exact ih

/-! ### `applyVars` -/

section
variable [Field K] [LinearOrder K]

theorem applyVars_spec {names : List String} (hn : names.Nodup) {ctr : Nat} {vars : List (String × ContVar K)}
    (hk : (vars.map Prod.fst).Nodup) {c c' : List K} (h : applyVars names ctr vars c = .ok c') :
    c'.length = c.length ∧
      ∀ (j : Nat) (n : String), names[j]? = some n →
        (∀ v, vars.lookup n = some v → c'[j]? = v.steps[ctr]?) ∧ (vars.lookup n = none → c'[j]? = c[j]?) := by
  induction vars generalizing c with
  | nil =>
    simp only [applyVars, Except.ok.injEq] at h
    subst h
    simp
  | cons p rest ih =>
    obtain ⟨m, w⟩ := p
    simp only [List.map_cons, List.nodup_cons] at hk
    simp only [applyVars, Py.bind_ok] at h
    obtain ⟨jj, hjj, x, hx, c1, hc1, hrest⟩ := h
    rw [Py.set_ok] at hc1
    obtain ⟨hlt, rfl⟩ := hc1
    rw [Py.get_ok] at hx
    have hjj' := Py.index_ok hjj
    obtain ⟨hlen, hspec⟩ := ih hk.2 hrest
    refine ⟨by simpa using hlen, fun j n hj => ?_⟩
    obtain ⟨h1, h2⟩ := hspec j n hj
    by_cases hnm : n = m
    · subst hnm
      have hjeq : j = jj := by
        have hjl : j < names.length := by rw [List.getElem?_eq_some_iff] at hj; exact hj.1
        exact (List.getElem?_inj hjl hn).1 (by rw [hj, hjj'])
      have hnone : rest.lookup n = none := (lookup_none_iff _ _).2 hk.1
      constructor
      · intro v hv
        simp [List.lookup] at hv
        subst hv
        rw [h2 hnone, hx, hjeq]
        simp [hlt]
      · intro hv; simp [List.lookup] at hv
    · have hb : (n == m) = false := by simpa using hnm
      have hjne : j ≠ jj := by
        rintro rfl
        rw [hj] at hjj'
        exact hnm (Option.some.inj hjj')
      constructor
      · intro v hv
        simp [List.lookup, hb] at hv
        exact h1 v hv
      · intro hv
        simp only [List.lookup, hb] at hv
        rw [h2 hv]
        simp [Ne.symm hjne]

theorem applyVars_total {names : List String} {ctr : Nat} {vars : List (String × ContVar K)} {c : List K}
    (hnames : ∀ nv ∈ vars, nv.1 ∈ names) (hlen : names.length ≤ c.length)
    (hsteps : ∀ nv ∈ vars, ctr < nv.2.steps.length) : ∃ c', applyVars names ctr vars c = .ok c' := by
  induction vars generalizing c with
  | nil => exact ⟨c, rfl⟩
  | cons p rest ih =>
    obtain ⟨m, w⟩ := p
    obtain ⟨jj, hjj⟩ := Py.index_of_mem (hnames (m, w) (by simp))
    have hjl : jj < c.length := by
      have := Py.index_ok hjj
      rw [List.getElem?_eq_some_iff] at this
      exact lt_of_lt_of_le this.1 hlen
    have hs := hsteps (m, w) (by simp)
    obtain ⟨c', hc'⟩ := ih (c := c.set jj (w.steps[ctr]'hs)) (fun nv h => hnames nv (List.mem_cons_of_mem _ h))
      (by simpa using hlen) (fun nv h => hsteps nv (List.mem_cons_of_mem _ h))
    refine ⟨c', ?_⟩
    simp only [applyVars, Py.bind_ok]
    exact ⟨jj, hjj, w.steps[ctr]'hs, by rw [Py.get_ok]; simp [hs], _, by rw [Py.set_ok]; exact ⟨hjl, rfl⟩, hc'⟩

/-! ### `baseNext` -/

theorem baseNext_ok {s s' : Strat K α} {ign : Bool} {g : Traj K α} (h : s.baseNext ign = .ok (g, s')) :
    ∃ last i g0, s.gammas.getLast? = some last ∧ s.ctr < s.numCases ∧
      applyVars s.constNames s.ctr s.vars last.const = .ok g.const ∧
      FirstMin (norms s.gammas g.const) i ∧ s.gammas[i]? = some g0 ∧
      g = { g0 with const := g.const } ∧ s' = { s with ctr := s.ctr + 1 } ∧
      (ign = false → s.gammas.length = 1 ∨ last.converged = true) := by
  unfold Strat.baseNext at h
  split at h
  · cases h
  · next last hl =>
    split at h
    · cases h
    · next hc1 =>
      split at h
      · cases h
      · next hc2 =>
        simp only [Py.bind_ok] at h
        obtain ⟨c, hc, i, hi, g0, hg0, hfin⟩ := h
        simp only [Except.ok.injEq, Prod.mk.injEq] at hfin
        obtain ⟨rfl, rfl⟩ := hfin
        refine ⟨last, i, g0, hl, by omega, hc, argmin_ok hi, Py.get_ok.1 hg0, rfl, rfl, ?_⟩
        intro hi
        simp only [hi, true_and, not_and, Bool.not_eq_false] at hc1
        by_cases h1 : s.gammas.length = 1
        · exact Or.inl h1
        · exact Or.inr (hc1 h1)

theorem baseNext_total {s : Strat K α} {ign : Bool} {last : Traj K α} (hl : s.gammas.getLast? = some last)
    (hign : ign = false → s.gammas.length = 1 ∨ last.converged = true) (hctr : s.ctr < s.numCases)
    (hnames : ∀ nv ∈ s.vars, nv.1 ∈ s.constNames) (hlen : s.constNames.length ≤ last.const.length)
    (hsteps : ∀ nv ∈ s.vars, s.ctr < nv.2.steps.length) :
    ∃ g, s.baseNext ign = .ok (g, { s with ctr := s.ctr + 1 }) := by
  obtain ⟨c, hc⟩ := applyVars_total hnames hlen hsteps
  have hne : norms s.gammas c ≠ [] := by
    intro h0
    simp only [norms, List.map_eq_nil_iff] at h0
    rw [h0] at hl; cases hl
  obtain ⟨i, hi⟩ := argmin_total hne
  have hil := (argmin_ok hi).lt_length
  simp only [norms, List.length_map] at hil
  refine ⟨{ s.gammas[i] with const := c }, ?_⟩
  unfold Strat.baseNext
  rw [hl]
  simp only
  rw [if_neg, if_neg (by omega)]
  · simp only [Py.bind_ok]
    exact ⟨c, hc, i, hi, s.gammas[i], by rw [Py.get_ok]; simp [hil], rfl⟩
  · rintro ⟨h1, h2, h3⟩
    rcases hign h1 with h | h
    · exact h2 h
    · rw [h] at h3; cases h3

theorem baseNext_stop {s : Strat K α} {ign : Bool} (h : s.baseNext ign = .error .stopIteration) :
    s.numCases ≤ s.ctr ∨ ∃ last, s.gammas.getLast? = some last ∧
      (applyVars s.constNames s.ctr s.vars last.const = .error .stopIteration) := by
  unfold Strat.baseNext at h
  split at h
  · cases h
  · next last hl =>
    split at h
    · cases h
    · split at h
      · left; assumption
      · right
        refine ⟨last, hl, ?_⟩
        cases hc : applyVars s.constNames s.ctr s.vars last.const with
        | error e =>
          rw [hc] at h
          simpa [bind, Except.bind] using h
        | ok c =>
          rw [hc] at h
          simp only [bind, Except.bind] at h
          unfold getClosest at h
          cases hn : norms s.gammas c with
          | nil => rw [hn] at h; simp [argmin] at h
          | cons x xs =>
            rw [hn] at h
            simp only [argmin] at h
            unfold Py.get at h
            split at h
            · next hh => split at hh <;> simp_all
            · cases h

theorem applyVars_ne_stop {names : List String} {ctr : Nat} {vars : List (String × ContVar K)} {c : List K} :
    applyVars names ctr vars c ≠ .error .stopIteration := by
  induction vars generalizing c with
  | nil => simp [applyVars]
  | cons p rest ih =>
    obtain ⟨m, w⟩ := p
    simp only [applyVars]
    unfold Py.index Py.get Py.set
    split
    · split
      · simp only [bind, Except.bind]
        split
        · next h => split at h <;> simp_all [eq_comm]
        · exact ih
      · simp [bind, Except.bind]
    · simp [bind, Except.bind]

theorem baseNext_stop' {s : Strat K α} {ign : Bool} (h : s.baseNext ign = .error .stopIteration) :
    s.numCases ≤ s.ctr := by
  rcases baseNext_stop h with h | ⟨_, _, h⟩
  · exact h
  · exact absurd h applyVars_ne_stop

/-! ### `bisectVars` -/

theorem bisectVar_ok {L : LogOps K} {sp : Spacing} {ctr nd : Nat} {v v' : ContVar K}
    (h : bisectVar L sp ctr nd v = .ok v') :
    ∃ a b new, v.steps[ctr - 2]? = some a ∧ v.steps[ctr - 1]? = some b ∧ newSteps L sp a b nd = .ok new ∧
      v' = { v with steps := npInsert v.steps (ctr - 1) new } := by
  simp only [bisectVar, Py.bind_ok] at h
  obtain ⟨a, ha, b, hb, new, hnew, hv⟩ := h
  exact ⟨a, b, new, Py.get_ok.1 ha, Py.get_ok.1 hb, hnew, (Except.ok.inj hv).symm⟩

theorem bisectVars_ok {L : LogOps K} {sp : Spacing} {ctr nd : Nat} {vars vars' : List (String × ContVar K)}
    (h : bisectVars L sp ctr nd vars = .ok vars') :
    List.Forall₂ (fun p q => q.1 = p.1 ∧ bisectVar L sp ctr nd p.2 = .ok q.2) vars vars' := by
  induction vars generalizing vars' with
  | nil => simp only [bisectVars, Except.ok.injEq] at h; subst h; exact .nil
  | cons p rest ih =>
    obtain ⟨m, w⟩ := p
    simp only [bisectVars, Py.bind_ok] at h
    obtain ⟨v', hv', rest', hrest, hfin⟩ := h
    cases hfin
    exact .cons ⟨rfl, hv'⟩ (ih hrest)

theorem bisectVars_total {L : LogOps K} {sp : Spacing} (hsp : sp ≠ .other) {ctr nd : Nat} (hctr : 2 ≤ ctr)
    {vars : List (String × ContVar K)} (h : ∀ nv ∈ vars, ctr ≤ nv.2.steps.length) :
    ∃ vars', bisectVars L sp ctr nd vars = .ok vars' := by
  induction vars with
  | nil => exact ⟨[], rfl⟩
  | cons p rest ih =>
    obtain ⟨m, w⟩ := p
    obtain ⟨rest', hr⟩ := ih (fun nv hnv => h nv (List.mem_cons_of_mem _ hnv))
    have hw := h (m, w) (by simp)
    simp only at hw
    have h2 : ctr - 2 < w.steps.length := by omega
    have h1 : ctr - 1 < w.steps.length := by omega
    obtain ⟨new, hnew⟩ : ∃ new, newSteps L sp w.steps[ctr-2] w.steps[ctr-1] nd = .ok new := by
      cases sp with
      | linear => exact ⟨_, rfl⟩
      | log => exact ⟨_, rfl⟩
      | other => exact absurd rfl hsp
    refine ⟨(m, { w with steps := npInsert w.steps (ctr - 1) new }) :: rest', ?_⟩
    simp only [bisectVars, Py.bind_ok, bisectVar]
    exact ⟨_, ⟨_, Py.get_ok.2 (List.getElem?_eq_getElem h2), _, Py.get_ok.2 (List.getElem?_eq_getElem h1), new,
      hnew, rfl⟩, rest', hr, rfl⟩

theorem forall₂_keys {L : LogOps K} {sp : Spacing} {ctr nd : Nat} {vars vars' : List (String × ContVar K)}
    (h : List.Forall₂ (fun p q => q.1 = p.1 ∧ bisectVar L sp ctr nd p.2 = .ok q.2) vars vars') :
    vars'.map (fun nv => (nv.1, nv.2.target)) = vars.map (fun nv => (nv.1, nv.2.target)) := by
  induction h with
  | nil => rfl
  | cons hpq _ ih =>
    obtain ⟨h1, h2⟩ := hpq
    obtain ⟨a, b, new, -, -, -, hv⟩ := bisectVar_ok h2
    simp only [List.map_cons, ih, h1, hv]

/-- `next` always ends in a `baseNext` of a state that shares gammas, names, targets and kind. -/
theorem next_ok {L : LogOps K} {s s' : Strat K α} {g : Traj K α} (h : s.next L = .ok (g, s')) :
    ∃ (m : Strat K α) (ign : Bool), m.baseNext ign = .ok (g, s') ∧ m.gammas = s.gammas ∧
      m.constNames = s.constNames ∧ m.targets = s.targets ∧ m.kind = s.kind ∧ m.spacing = s.spacing ∧
      m.numDivisions = s.numDivisions ∧ m.maxDivisions = s.maxDivisions ∧
      (s.kind ≠ .bisection → m.vars = s.vars ∧ m.ctr = s.ctr ∧ m.numCases = s.numCases) := by
  unfold Strat.next at h
  have hprod : s.productNext = .ok (g, s') → ∃ (m : Strat K α) (ign : Bool), m.baseNext ign = .ok (g, s') ∧
      m.gammas = s.gammas ∧ m.constNames = s.constNames ∧ m.targets = s.targets ∧ m.kind = s.kind ∧
      m.spacing = s.spacing ∧ m.numDivisions = s.numDivisions ∧ m.maxDivisions = s.maxDivisions ∧
      (s.kind ≠ .bisection → m.vars = s.vars ∧ m.ctr = s.ctr ∧ m.numCases = s.numCases) := by
    intro h
    simp only [Strat.productNext, Py.bind_ok] at h
    obtain ⟨go, -, h⟩ := h
    split at h
    · exact ⟨_, _, h, rfl, rfl, rfl, rfl, rfl, rfl, rfl, fun _ => ⟨rfl, rfl, rfl⟩⟩
    · split at h
      · cases h
      · exact ⟨_, _, h, rfl, rfl, rfl, rfl, rfl, rfl, rfl, fun _ => ⟨rfl, rfl, rfl⟩⟩
  split at h
  · exact ⟨s, false, h, rfl, rfl, rfl, rfl, rfl, rfl, rfl, fun _ => ⟨rfl, rfl, rfl⟩⟩
  · next hk =>
    simp only [Strat.bisectionNext, Py.bind_ok] at h
    obtain ⟨go, -, h⟩ := h
    split at h
    · exact ⟨_, _, h, rfl, rfl, rfl, rfl, rfl, rfl, rfl, fun _ => ⟨rfl, rfl, rfl⟩⟩
    · split at h
      · cases h
      · split at h
        · cases h
        · rw [Py.bind_ok] at h
          obtain ⟨vars', hv, h⟩ := h
          exact ⟨_, _, h, rfl, rfl, forall₂_keys (bisectVars_ok hv), rfl, rfl, rfl, rfl, fun hne => absurd hk hne⟩
  · exact hprod h
  · exact hprod h

/-! ### `init` -/

theorem manualInitVars_ok {L : LogOps K} {sp : Spacing} {n : Nat} {names : List String} {c : List K}
    {vars vars' : List (String × ContVar K)} (h : manualInitVars L sp n names c vars = .ok vars') :
    List.Forall₂ (fun p q => q.1 = p.1 ∧ q.2.target = p.2.target ∧ ∃ (jj : Nat) (x : K), names[jj]? = some p.1 ∧ c[jj]? = some x ∧
      q.2.steps = manualSteps L sp p.2 x n) vars vars' := by
  induction vars generalizing vars' with
  | nil => simp only [manualInitVars, Except.ok.injEq] at h; subst h; exact .nil
  | cons p rest ih =>
    obtain ⟨m, w⟩ := p
    simp only [manualInitVars, Py.bind_ok] at h
    obtain ⟨jj, hjj, x, hx, rest', hrest, hfin⟩ := h
    cases hfin
    exact .cons ⟨rfl, rfl, jj, x, Py.index_ok hjj, Py.get_ok.1 hx, rfl⟩ (ih hrest)

theorem valueVars_ok {names : List String} {c : List K}
    {vars vars' : List (String × ContVar K)} (h : valueVars names c vars = .ok vars') :
    List.Forall₂ (fun p q => q.1 = p.1 ∧ q.2.target = p.2.target ∧ q.2.steps = p.2.steps ∧
      ∃ (jj : Nat) (x : K), names[jj]? = some p.1 ∧ c[jj]? = some x ∧ q.2.value = some x) vars vars' := by
  induction vars generalizing vars' with
  | nil => simp only [valueVars, Except.ok.injEq] at h; subst h; exact .nil
  | cons p rest ih =>
    obtain ⟨m, w⟩ := p
    simp only [valueVars, Py.bind_ok] at h
    obtain ⟨jj, hjj, x, hx, rest', hrest, hfin⟩ := h
    cases hfin
    exact .cons ⟨rfl, rfl, rfl, jj, x, Py.index_ok hjj, Py.get_ok.1 hx, rfl⟩ (ih hrest)

theorem forall₂_mem_right {β γ : Type _} {R : β → γ → Prop} {l : List β} {l' : List γ}
    (h : List.Forall₂ R l l') {b : γ} (hb : b ∈ l') : ∃ a ∈ l, R a b := by
  induction h with
  | nil => simp at hb
  | cons hab _ ih =>
    rcases List.mem_cons.1 hb with rfl | hb
    · exact ⟨_, List.mem_cons_self .., hab⟩
    · obtain ⟨a, ha, hR⟩ := ih hb
      exact ⟨a, List.mem_cons_of_mem _ ha, hR⟩

theorem map_eq_of_forall₂ {β γ : Type _} {R : β → β → Prop} {f : β → γ} {l l' : List β}
    (h : List.Forall₂ R l l') (hR : ∀ a b, R a b → f b = f a) : l'.map f = l.map f := by
  induction h with
  | nil => rfl
  | cons hab _ ih => simp [hR _ _ hab, ih]

theorem appendSteps_ok {vars vars' : List (String × ContVar K)} {pt : List K}
    (h : appendSteps vars pt = .ok vars') :
    List.Forall₂ (fun p q => q.1 = p.1 ∧ q.2.target = p.2.target) vars vars' := by
  induction vars generalizing pt vars' with
  | nil =>
    simp only [appendSteps, Except.ok.injEq] at h; subst h; exact .nil
  | cons p rest ih =>
    obtain ⟨m, w⟩ := p
    cases pt with
    | nil => simp [appendSteps] at h
    | cons x xs =>
      simp only [appendSteps, Py.bind_ok] at h
      obtain ⟨rest', hr, hfin⟩ := h
      cases hfin
      exact .cons ⟨rfl, rfl⟩ (ih hr)

theorem appendAll_targets {vars vars' : List (String × ContVar K)} {pts : List (List K)}
    (h : appendAll vars pts = .ok vars') :
    vars'.map (fun nv => (nv.1, nv.2.target)) = vars.map (fun nv => (nv.1, nv.2.target)) := by
  induction pts generalizing vars with
  | nil => simp only [appendAll, Except.ok.injEq] at h; rw [h]
  | cons pt pts ih =>
    simp only [appendAll, Py.bind_ok] at h
    obtain ⟨v1, h1, h2⟩ := h
    rw [ih h2]
    exact map_eq_of_forall₂ (appendSteps_ok h1) (fun a b hab => by rw [hab.1, hab.2])

/-- What every `init` does: one un-converged gamma with the starting constants, names stored, targets and keys
unchanged, counter unchanged. -/
theorem init_ok {L : LogOps K} {s0 s1 : Strat K α} {sol : Traj K α} {names : List String}
    (h : s0.init L sol names = .ok s1) :
    s1.gammas = [{ sol with converged := false }] ∧ s1.constNames = names ∧ s1.targets = s0.targets ∧
      s1.kind = s0.kind ∧ s1.ctr = s0.ctr ∧ s1.spacing = s0.spacing ∧ s1.numDivisions = s0.numDivisions ∧
      s1.maxDivisions = s0.maxDivisions := by
  have hman : s0.manualInit L sol names = .ok s1 →
      s1.gammas = [{ sol with converged := false }] ∧ s1.constNames = names ∧ s1.targets = s0.targets ∧
      s1.kind = s0.kind ∧ s1.ctr = s0.ctr ∧ s1.spacing = s0.spacing ∧ s1.numDivisions = s0.numDivisions ∧
      s1.maxDivisions = s0.maxDivisions := by
    intro h
    simp only [Strat.manualInit, Py.bind_ok] at h
    obtain ⟨vars', hv, hfin⟩ := h
    cases hfin
    refine ⟨rfl, rfl, ?_, rfl, rfl, rfl, rfl, rfl⟩
    exact map_eq_of_forall₂ (manualInitVars_ok hv) (fun a b hab => by rw [hab.1, hab.2.1])
  unfold Strat.init at h
  split at h
  · exact hman h
  · exact hman h
  · simp only [Strat.productInit] at h
    split at h
    · cases h
    · rw [Py.bind_ok] at h
      obtain ⟨v1, hv1, h⟩ := h
      rw [Py.bind_ok] at h
      obtain ⟨v2, hv2, h⟩ := h
      cases h
      refine ⟨rfl, rfl, ?_, rfl, rfl, rfl, rfl, rfl⟩
      rw [Strat.targets, appendAll_targets hv2]
      exact map_eq_of_forall₂ (valueVars_ok hv1) (fun a b hab => by rw [hab.1, hab.2.1])
  · simp only [Strat.sparseInit, Py.bind_ok] at h
    obtain ⟨v1, hv1, ⟨steps, cl⟩, hst, h⟩ := h
    split at h
    · cases h
    · rw [Py.bind_ok] at h
      obtain ⟨v2, hv2, h⟩ := h
      cases h
      refine ⟨rfl, rfl, ?_, rfl, rfl, rfl, rfl, rfl⟩
      rw [Strat.targets, appendAll_targets hv2]
      exact map_eq_of_forall₂ (valueVars_ok hv1) (fun a b hab => by rw [hab.1, hab.2.1])

end

end Beluga.Cont
