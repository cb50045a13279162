import Verif.Continuation.Props2

/-!
# What every trajectory of a continuation has in common
-/

namespace Beluga.Cont

variable {K : Type} [Field K] [LinearOrder K] [IsStrictOrderedRing K] {α : Type}

/-- Every solution is the answer of the solver to a guess; what holds for the starting trajectories and is kept by the solver
holds for all guesses and solutions. -/
theorem ran_keeps {L : LogOps K} {solve : Nat → Traj K α → Py (Traj K α)} {P : α → Prop}
    (hP : ∀ n g sol, P g.data → solve n g = .ok sol → P sol.data) {n : Nat} {s1 s : Strat K α}
    {tr : List (Traj K α × Traj K α)} (h : Ran L solve n s1 tr s) (h1 : ∀ g ∈ s1.gammas, P g.data) :
    (∀ g ∈ s.gammas, P g.data) ∧ ∀ p ∈ tr, P p.1.data ∧ P p.2.data ∧ ∃ m, solve m p.1 = .ok p.2 := by
  induction h with
  | start => exact ⟨h1, by simp⟩
  | step hr hn hs ih =>
    rename_i tr s s' g sol
    obtain ⟨ih1, ih2⟩ := ih
    obtain ⟨s2, ign, hb, hg2⟩ := next_baseNext hn
    obtain ⟨last, i, g0, -, -, -, -, hi, hg, hs', -⟩ := baseNext_ok hb
    have hg0 : P g.data := by
      rw [hg]
      exact ih1 g0 (by rw [← hg2]; exact List.mem_of_getElem? hi)
    have hsol := hP _ _ _ hg0 hs
    refine ⟨fun x hx => ?_, fun p hp => ?_⟩
    · subst hs'
      simp only [Strat.addGamma, List.mem_append, List.mem_singleton] at hx
      rcases hx with hx | rfl
      · exact ih1 x (by rw [← hg2]; exact hx)
      · exact hsol
    · rw [List.mem_append, List.mem_singleton] at hp
      rcases hp with hp | rfl
      · exact ih2 p hp
      · exact ⟨hg0, hsol, _, hs⟩

theorem chain_keeps {L : LogOps K} {solve : Nat → Traj K α → Py (Traj K α)} {P : α → Prop}
    (hP : ∀ n g sol, P g.data → solve n g = .ok sol → P sol.data) {names : List String} {n : Nat} {guess : Traj K α}
    {ss : List (Strat K α)} {trs : List (List (Traj K α × Traj K α))} (h : Chain L solve names n guess ss trs)
    (h0 : P guess.data) : ∀ tr ∈ trs, ∀ p ∈ tr, P p.1.data ∧ P p.2.data ∧ ∃ m, solve m p.1 = .ok p.2 := by
  induction h with
  | nil => simp
  | cons hinit hran hstop hrest ih =>
    rename_i n g s s1 s' rest tr trs
    have h1 := (init_ok hinit).1
    obtain ⟨-, h2⟩ := ran_keeps hP hran (by
      rw [h1]
      intro x hx
      simp only [List.mem_singleton] at hx
      subst hx
      exact h0)
    have hlast : P (((tr.map Prod.snd).getLast?).getD g).data := by
      cases hl : (tr.map Prod.snd).getLast? with
      | none => exact h0
      | some x =>
        obtain ⟨p, hp, rfl⟩ := List.mem_map.1 (List.mem_of_getLast? hl)
        exact (h2 p hp).2.1
    intro t ht
    rw [List.mem_cons] at ht
    rcases ht with rfl | ht
    · exact h2
    · exact ih hlast t ht

/-- Every guess has the data of a trajectory that was there before it. -/
theorem ran_warm {L : LogOps K} {solve : Nat → Traj K α → Py (Traj K α)} {n : Nat} {s1 s : Strat K α}
    {tr : List (Traj K α × Traj K α)} (h : Ran L solve n s1 tr s) :
    (∀ g ∈ s.gammas, g.data ∈ s1.gammas.map Traj.data ++ tr.map fun x => x.2.data) ∧
      ∀ pre x post, tr = pre ++ x :: post → x.1.data ∈ s1.gammas.map Traj.data ++ pre.map fun x => x.2.data := by
  induction h with
  | start =>
    refine ⟨fun g hg => by simpa using ⟨g, hg, rfl⟩, fun pre x post h => ?_⟩
    simp at h
  | step hr hn hs ih =>
    rename_i tr s s' g sol
    obtain ⟨ih1, ih2⟩ := ih
    obtain ⟨s2, ign, hb, hg2⟩ := next_baseNext hn
    obtain ⟨last, i, g0, -, -, -, -, hi, hg, hs', -⟩ := baseNext_ok hb
    have hg0 : g.data ∈ s1.gammas.map Traj.data ++ tr.map fun x => x.2.data := by
      rw [hg]
      exact ih1 g0 (by rw [← hg2]; exact List.mem_of_getElem? hi)
    refine ⟨fun x hx => ?_, fun pre x post hp => ?_⟩
    · subst hs'
      simp only [Strat.addGamma, List.mem_append, List.mem_singleton] at hx
      rw [List.map_append, ← List.append_assoc, List.mem_append]
      rcases hx with hx | rfl
      · exact Or.inl (ih1 x (by rw [← hg2]; exact hx))
      · exact Or.inr (by simp)
    · rcases List.eq_nil_or_concat post with rfl | ⟨post, y, rfl⟩
      · obtain ⟨rfl, e⟩ := List.append_inj' hp rfl
        simp only [List.cons.injEq, and_true] at e
        subst e
        exact hg0
      · rw [List.concat_eq_append, ← List.cons_append, ← List.append_assoc] at hp
        exact ih2 pre x post (List.append_inj' hp rfl).1

theorem chain_warm {L : LogOps K} {solve : Nat → Traj K α → Py (Traj K α)} {names : List String} {n : Nat} {guess : Traj K α}
    {ss : List (Strat K α)} {trs : List (List (Traj K α × Traj K α))} (h : Chain L solve names n guess ss trs) :
    ∀ pre x post, trs.flatten = pre ++ x :: post → x.1.data ∈ guess.data :: pre.map fun x => x.2.data := by
  induction h with
  | nil =>
    intro pre x post h
    simp at h
  | cons hinit hran hstop hrest ih =>
    rename_i n g s s1 s' rest tr trs
    intro pre x post h
    have h1 := (init_ok hinit).1
    rw [List.flatten_cons, List.append_eq_append_iff] at h
    rcases h with ⟨as, rfl, h⟩ | ⟨cs, h2, h3⟩
    · have := ih as x post h
      rw [List.mem_cons] at this
      rw [List.map_append, List.mem_cons, List.mem_append]
      rcases this with this | this
      · rw [this]
        cases hl : (tr.map Prod.snd).getLast? with
        | none => exact Or.inl rfl
        | some y =>
          obtain ⟨z, hz, rfl⟩ := List.mem_map.1 (List.mem_of_getLast? hl)
          exact Or.inr (Or.inl (List.mem_map.2 ⟨z, hz, rfl⟩))
      · exact Or.inr (Or.inr this)
    · cases cs with
      | nil =>
        simp only [List.append_nil, List.nil_append] at h2 h3
        subst h2
        have := ih [] x post h3.symm
        simp only [List.map_nil, List.mem_singleton] at this
        rw [List.mem_cons, this]
        cases hl : (tr.map Prod.snd).getLast? with
        | none => exact Or.inl rfl
        | some y =>
          obtain ⟨z, hz, rfl⟩ := List.mem_map.1 (List.mem_of_getLast? hl)
          exact Or.inr (List.mem_map.2 ⟨z, hz, rfl⟩)
      | cons y cs =>
        simp only [List.cons_append, List.cons.injEq] at h3
        obtain ⟨rfl, -⟩ := h3
        have := (ran_warm hran).2 pre x cs h2
        rw [h1] at this
        simpa using this

omit [Field K] [LinearOrder K] [IsStrictOrderedRing K] in
/-- Setting constants keeps their number. -/
theorem applyVars_length {names : List String} {ctr : Nat} : ∀ {vars : List (String × ContVar K)} {c c' : List K},
    applyVars names ctr vars c = .ok c' → c'.length = c.length
  | [], c, c', h => by
    simp only [applyVars, Except.ok.injEq] at h
    rw [h]
  | (m, w) :: rest, c, c', h => by
    simp only [applyVars, Py.bind_ok] at h
    obtain ⟨jj, -, x, -, c1, hc1, hrest⟩ := h
    rw [Py.set_ok] at hc1
    obtain ⟨-, rfl⟩ := hc1
    rw [applyVars_length hrest, List.length_set]

/-- As `ran_keeps`, for a solver that keeps `I` if it is given a good guess. -/
theorem ran_inv {L : LogOps K} {solve : Nat → Traj K α → Py (Traj K α)} {Good I : Traj K α → Prop} {N : Nat}
    (hlen : ∀ g, I g → g.const.length = N) (hset : ∀ (g : Traj K α) k b, I g → k.length = N → I { g with const := k, converged := b })
    (hI : ∀ n g sol, Good g → I g → solve n g = .ok sol → I sol) {n : Nat} {s1 s : Strat K α}
    {tr : List (Traj K α × Traj K α)} (h : Ran L solve n s1 tr s) (hgood : ∀ p ∈ tr, Good p.1) (h1 : ∀ g ∈ s1.gammas, I g) :
    (∀ g ∈ s.gammas, I g) ∧ ∀ p ∈ tr, I p.1 ∧ I p.2 := by
  induction h with
  | start => exact ⟨h1, by simp⟩
  | step hr hn hs ih =>
    rename_i tr s s' g sol
    obtain ⟨ih1, ih2⟩ := ih fun p hp => hgood p (List.mem_append_left _ hp)
    obtain ⟨s2, ign, hb, hg2⟩ := next_baseNext hn
    obtain ⟨last, i, g0, hl, -, ha, -, hi, hg, hs', -⟩ := baseNext_ok hb
    have hg0 : I g := by
      rw [hg]
      refine hset _ _ _ (ih1 g0 (by rw [← hg2]; exact List.mem_of_getElem? hi)) ?_
      rw [applyVars_length ha]
      exact hlen _ (ih1 last (by rw [← hg2]; exact List.mem_of_getLast? hl))
    have hsol := hI _ _ _ (hgood (g, sol) (by simp)) hg0 hs
    refine ⟨fun x hx => ?_, fun p hp => ?_⟩
    · subst hs'
      simp only [Strat.addGamma, List.mem_append, List.mem_singleton] at hx
      rcases hx with hx | rfl
      · exact ih1 x (by rw [← hg2]; exact hx)
      · exact hsol
    · rw [List.mem_append, List.mem_singleton] at hp
      rcases hp with hp | rfl
      · exact ih2 p hp
      · exact ⟨hg0, hsol⟩

theorem chain_inv {L : LogOps K} {solve : Nat → Traj K α → Py (Traj K α)} {Good I : Traj K α → Prop} {N : Nat}
    (hlen : ∀ g, I g → g.const.length = N) (hset : ∀ (g : Traj K α) k b, I g → k.length = N → I { g with const := k, converged := b })
    (hI : ∀ n g sol, Good g → I g → solve n g = .ok sol → I sol) {names : List String} {n : Nat} {guess : Traj K α}
    {ss : List (Strat K α)} {trs : List (List (Traj K α × Traj K α))} (h : Chain L solve names n guess ss trs)
    (hgood : ∀ tr ∈ trs, ∀ p ∈ tr, Good p.1) (h0 : I guess) : ∀ tr ∈ trs, ∀ p ∈ tr, I p.1 ∧ I p.2 := by
  induction h with
  | nil => simp
  | cons hinit hran hstop hrest ih =>
    rename_i n g s s1 s' rest tr trs
    have h1 := (init_ok hinit).1
    obtain ⟨-, h2⟩ := ran_inv hlen hset hI hran (hgood _ (List.mem_cons_self ..)) (by
      rw [h1]
      intro x hx
      simp only [List.mem_singleton] at hx
      subst hx
      exact hset _ _ _ h0 (hlen _ h0))
    have hlast : I (((tr.map Prod.snd).getLast?).getD g) := by
      cases hl : (tr.map Prod.snd).getLast? with
      | none => exact h0
      | some x =>
        obtain ⟨p, hp, rfl⟩ := List.mem_map.1 (List.mem_of_getLast? hl)
        exact (h2 p hp).2
    intro t ht
    rw [List.mem_cons] at ht
    rcases ht with rfl | ht
    · exact h2
    · exact ih (fun tr htr => hgood tr (List.mem_cons_of_mem _ htr)) hlast t ht

/-- Only the answers to the guesses of the run matter. -/
theorem ran_congr {L : LogOps K} {solve solve' : Nat → Traj K α → Py (Traj K α)} {n : Nat} {s1 s : Strat K α}
    {tr : List (Traj K α × Traj K α)} (h : Ran L solve n s1 tr s)
    (hc : ∀ p ∈ tr, ∀ m, solve m p.1 = .ok p.2 → solve' m p.1 = .ok p.2) : Ran L solve' n s1 tr s := by
  induction h with
  | start => exact .start
  | step hr hn hs ih =>
    exact .step (ih fun p hp => hc p (List.mem_append_left _ hp)) hn (hc (_, _) (by simp) _ hs)

theorem chain_congr {L : LogOps K} {solve solve' : Nat → Traj K α → Py (Traj K α)} {names : List String} {n : Nat}
    {guess : Traj K α} {ss : List (Strat K α)} {trs : List (List (Traj K α × Traj K α))}
    (h : Chain L solve names n guess ss trs)
    (hc : ∀ tr ∈ trs, ∀ p ∈ tr, ∀ m, solve m p.1 = .ok p.2 → solve' m p.1 = .ok p.2) :
    Chain L solve' names n guess ss trs := by
  induction h with
  | nil => exact .nil
  | cons hinit hran hstop hrest ih =>
    exact .cons hinit (ran_congr hran (hc _ (List.mem_cons_self ..))) hstop
      (ih fun tr htr => hc tr (List.mem_cons_of_mem _ htr))

end Beluga.Cont
