import Verif.Continuation.Enough

/-!
# C91: continuation with a solver that is only known near solutions

`Tracks` (C89) asks for a solver that never raises and is right whenever it reports convergence.  Of a real solver this is
known near solutions only.  With so many cases that every guess is near, nothing else is needed.
-/

set_option linter.unusedSectionVars false

namespace Beluga.Cont

variable {K : Type _} {α : Type _} [Field K] [LinearOrder K]

/-- From a good guess for constants at a distance of at most `δ` the solver finds a fine solution, and fine solutions are
good guesses.  Nothing is said about other guesses. -/
structure TracksNear (solve : Nat → Traj K α → Py (Traj K α)) (R : List K → Prop) (Good Fine : List K → α → Prop) (δ : K) :
    Prop where
  near : ∀ n g c, R c → R g.const → Good c g.data → dist1 c g.const ≤ δ →
    ∃ sol, solve n g = .ok sol ∧ sol.const = g.const ∧ sol.converged = true ∧ Fine g.const sol.data
  good : ∀ c d, R c → Fine c d → Good c d

/-- A list of steps with cases at most `δ` apart, each from the constants at which the one before it ends. -/
inductive FinePlan (L : LogOps K) (names : List String) (R : List K → Prop) (δ : K) (M : Nat) :
    List K → List (Strat K α) → List K → Prop where
  | nil (c : List K) : FinePlan L names R δ M c [] c
  | cons {c goal final : List K} {s : Strat K α} {rest : List (Strat K α)} :
      s.kind = .manual ∨ (s.kind = .bisection ∧ 2 ≤ s.numDivisions) → s.spacing = .linear → 2 ≤ s.numCases →
      (s.vars.map Prod.fst).Nodup → (∀ n ∈ s.vars.map Prod.fst, n ∈ names) → AtTarget names s.targets c goal →
      dist1 c goal ≤ δ * ((s.numCases - 1 : Nat) : K) →
      (∀ τ c', 0 ≤ τ → τ ≤ 1 → OnPath L .linear names s.targets c τ c' → R c') →
      (s.numCases - 1) * (s.numDivisions + 1) ≤ M → FinePlan L names R δ M goal rest final →
      FinePlan L names R δ M c (s :: rest) final

open Classical in
/-- The solver where it is known, and failure elsewhere. -/
noncomputable def guarded (solve : Nat → Traj K α → Py (Traj K α)) (R : List K → Prop) (Good : List K → α → Prop) (δ : K) :
    Nat → Traj K α → Py (Traj K α) := fun n g =>
  if R g.const ∧ ∃ c, R c ∧ Good c g.data ∧ dist1 c g.const ≤ δ then solve n g else .ok { g with converged := false }

section
variable [IsStrictOrderedRing K] {L : LogOps K} {s0 s1 : Strat K α} {sol0 : Traj K α} {names : List String}
  {solve : Nat → Traj K α → Py (Traj K α)} {R : List K → Prop} {Good Fine : List K → α → Prop} {δ : K} {goal : List K} {M : Nat}

theorem guarded_converged {n : Nat} {g sol : Traj K α} (h : guarded solve R Good δ n g = .ok sol) (hc : sol.converged = true) :
    solve n g = .ok sol ∧ R g.const ∧ ∃ c, R c ∧ Good c g.data ∧ dist1 c g.const ≤ δ := by
  unfold guarded at h
  by_cases hg : R g.const ∧ ∃ c, R c ∧ Good c g.data ∧ dist1 c g.const ≤ δ
  · rw [if_pos hg] at h; exact ⟨h, hg⟩
  · rw [if_neg hg] at h; cases h; cases hc

theorem TracksNear.guarded (hT : TracksNear solve R Good Fine δ) : Tracks (guarded solve R Good δ) R Good δ := by
  constructor
  · intro n g
    unfold Cont.guarded
    by_cases hg : R g.const ∧ ∃ c, R c ∧ Good c g.data ∧ dist1 c g.const ≤ δ
    · rw [if_pos hg]
      obtain ⟨h1, c, h2, h3, h4⟩ := hg
      obtain ⟨sol, e1, e2, -, e4⟩ := hT.near n g c h2 h1 h3 h4
      exact ⟨sol, e1, e2, fun _ => by rw [e2]; exact hT.good _ _ h1 e4⟩
    · rw [if_neg hg]
      exact ⟨_, rfl, rfl, fun h => by cases h⟩
  · intro n g c sol h1 h2 h3 h4 hs
    unfold Cont.guarded at hs
    rw [if_pos ⟨h2, c, h1, h3, h4⟩] at hs
    obtain ⟨sol', e1, -, e3, -⟩ := hT.near n g c h1 h2 h3 h4
    rw [hs] at e1; cases e1
    exact e3

/-- A run of the guarded solver without failures is a run of the solver. -/
theorem stepLoop_guarded (hT : TracksNear solve R Good Fine δ) : ∀ (fuel : Nat) (s : Strat K α) (n : Nat)
    (tr : List (Traj K α × Traj K α)),
    (∀ p ∈ (stepLoop L (guarded solve R Good δ) fuel s n tr).trace, p.2.converged = true) →
    (∀ p ∈ tr, Fine p.2.const p.2.data) →
    stepLoop L solve fuel s n tr = stepLoop L (guarded solve R Good δ) fuel s n tr ∧
      ∀ p ∈ (stepLoop L (guarded solve R Good δ) fuel s n tr).trace, Fine p.2.const p.2.data := by
  intro fuel
  have pre : ∀ (sv : Nat → Traj K α → Py (Traj K α)) (fuel : Nat) (s : Strat K α) (n : Nat) (tr : List (Traj K α × Traj K α)),
      ∀ p ∈ tr, p ∈ (stepLoop L sv fuel s n tr).trace := by
    intro sv fuel
    induction fuel with
    | zero => intro s n tr p hp; exact hp
    | succ fuel ih =>
      intro s n tr p hp
      unfold stepLoop
      cases hn : s.next L with
      | error e => cases e <;> exact hp
      | ok gs =>
        dsimp only
        cases hsv : sv n gs.1 with
        | error e => exact hp
        | ok sol => exact ih _ _ _ p (List.mem_append_left _ hp)
  induction fuel with
  | zero => intro s n tr _ hf; exact ⟨rfl, hf⟩
  | succ fuel ih =>
    intro s n tr hc hf
    unfold stepLoop at hc ⊢
    cases hn : s.next L with
    | error e => cases e <;> exact ⟨rfl, hf⟩
    | ok gs =>
      rw [hn] at hc
      dsimp only at hc ⊢
      obtain ⟨sol, e1, e2, -⟩ := hT.guarded.total n gs.1
      rw [e1] at hc
      dsimp only at hc
      have hsc : sol.converged = true := hc (gs.1, sol) (pre _ _ _ _ _ _ (by simp))
      obtain ⟨e3, h1, c, h2, h3, h4⟩ := guarded_converged e1 hsc
      obtain ⟨sol', e4, -, -, e5⟩ := hT.near n gs.1 c h2 h1 h3 h4
      rw [e3] at e4; cases e4
      rw [e1, e3]
      dsimp only
      refine ih _ _ _ hc ?_
      intro p hp
      rcases List.mem_append.1 hp with hp | hp
      · exact hf p hp
      · simp only [List.mem_singleton] at hp
        subst hp
        rw [e2]; exact e5

/-- A step with cases at most `δ` apart does not fail. -/
theorem loop_converges (hs : Starts L s0 sol0 names s1) (hkind : s0.kind = .manual ∨ s0.kind = .bisection)
    (hF : FineEnough s0 δ (dist1 sol0.const goal)) (hfine : dist1 sol0.const goal ≤ δ * ((s0.numCases - 1 : Nat) : K))
    (hT : Tracks solve R Good δ) (hδ : 0 ≤ δ) (hδ' : δ < 9 * 10 ^ 99)
    (hg0 : Good sol0.const sol0.data) (hgoal : AtTarget names s0.targets sol0.const goal)
    (hR : ∀ τ c, 0 ≤ τ → τ ≤ 1 → OnPath L .linear names s0.targets sol0.const τ c → R c)
    (hM : s0.numCases - 1 ≤ M) (hMD : s0.kind = .bisection → dist1 sol0.const goal * s0.numDivisions ≤ M * δ)
    (fuel : Nat) {tr : List (Traj K α × Traj K α)} {s : Strat K α} {ts : List K} {n : Nat}
    (he : Exec L s1 tr s)
    (hI : SInv L s0.spacing names s0.targets sol0.const (linspace (0 : K) 1 s0.numCases).getLast? s0.numCases tr s ts)
    (hJ : TInv Good δ (dist1 sol0.const goal) (1 / (M : K)) s0.numCases s0.numDivisions tr s ts)
    (hc : ∀ p ∈ tr, p.2.converged = true) :
    ∀ p ∈ (stepLoop L solve fuel s n tr).trace, p.2.converged = true := by
  induction fuel generalizing tr s n ts with
  | zero => exact hc
  | succ fuel ih =>
    unfold stepLoop
    cases hn : s.next L with
    | error e => cases e <;> exact hc
    | ok gs =>
      obtain ⟨g, s'⟩ := gs
      dsimp only
      obtain ⟨sol, hsol, hconst, -⟩ := hT.total n g
      rw [hsol]
      dsimp only
      obtain ⟨ts', hI', hJ'⟩ := tinv_step hs hkind hF hT hδ hδ' hg0 hgoal hR hM hMD he hI hJ hn hsol
      refine ih (Exec.step he hn hconst) hI' hJ' ?_
      intro p hp
      rcases List.mem_append.1 hp with hp | hp
      · exact hc p hp
      · simp only [List.mem_singleton] at hp
        subst hp
        by_contra hcon
        obtain ⟨h2, a, b, ha, hb, hlt, -⟩ := hJ'.fail tr (g, sol) rfl (by simpa using hcon)
        have hgap := hJ'.gaps.get ha (by rw [show (s'.addGamma sol).ctr - 2 + 1 = (s'.addGamma sol).ctr - 1 by omega]; exact hb)
        have hN := hF.cases_
        have hN1 : (0 : K) < ((s0.numCases - 1 : Nat) : K) := by
          have : 0 < s0.numCases - 1 := by omega
          exact_mod_cast this
        have h3 : (b - a) * dist1 sol0.const goal ≤ δ := by
          calc (b - a) * dist1 sol0.const goal
              ≤ 1 / ((s0.numCases - 1 : Nat) : K) * (δ * ((s0.numCases - 1 : Nat) : K)) := by
                apply mul_le_mul hgap.2 hfine (dist1_nonneg _ _) (by positivity)
            _ = δ := by field_simp
        linarith

/-- C91 for one step. -/
theorem near_target (hs : Starts L s0 sol0 names s1) (hkind : s0.kind = .manual ∨ (s0.kind = .bisection ∧ 2 ≤ s0.numDivisions))
    (hsp : s0.spacing = .linear) (hN : 2 ≤ s0.numCases) (hgoal : AtTarget names s0.targets sol0.const goal)
    (hfine : dist1 sol0.const goal ≤ δ * ((s0.numCases - 1 : Nat) : K)) (hT : TracksNear solve R Good Fine δ)
    (hδ : 0 ≤ δ) (hδ' : δ < 9 * 10 ^ 99) (hg0 : Good sol0.const sol0.data)
    (hR : ∀ τ c, 0 ≤ τ → τ ≤ 1 → OnPath L .linear names s0.targets sol0.const τ c → R c)
    (hM : (s0.numCases - 1) * (s0.numDivisions + 1) ≤ M) (fuel n : Nat) (hfuel : 2 * M + 1 ≤ fuel) :
    ∃ pre p, (stepLoop L solve fuel s1 n []).ending = .ended ∧ (stepLoop L solve fuel s1 n []).trace = pre ++ [p] ∧
      (pre ++ [p]).length = s0.numCases ∧ (∀ q ∈ pre ++ [p], q.2.converged = true ∧ Fine q.2.const q.2.data) ∧ p.2.const = goal := by
  have hkind' : s0.kind = .manual ∨ s0.kind = .bisection := hkind.imp id And.left
  have hM1 : s0.numCases - 1 ≤ M := le_trans (Nat.le_mul_of_pos_right _ (by omega)) hM
  have hF : FineEnough s0 δ (dist1 sol0.const goal) := by
    refine ⟨hsp, hN, fun _ => hfine, fun hk => ?_⟩
    have hnd : 2 ≤ s0.numDivisions := by
      rcases hkind with h | h
      · rw [h] at hk; cases hk
      · exact h.2
    refine ⟨hnd, hfine.trans ?_⟩
    have h1 : (1 : K) ≤ (s0.numDivisions : K) := by
      have : 1 ≤ s0.numDivisions := by omega
      exact_mod_cast this
    exact le_mul_of_one_le_right (by positivity) (one_le_pow₀ h1)
  have hMD : s0.kind = .bisection → dist1 sol0.const goal * s0.numDivisions ≤ M * δ := by
    intro _
    have h1 : ((s0.numCases - 1 : Nat) : K) * (s0.numDivisions : K) ≤ M := by
      have : (s0.numCases - 1) * s0.numDivisions ≤ M := le_trans (Nat.mul_le_mul_left _ (by omega)) hM
      exact_mod_cast this
    calc dist1 sol0.const goal * s0.numDivisions ≤ δ * ((s0.numCases - 1 : Nat) : K) * s0.numDivisions :=
          mul_le_mul_of_nonneg_right hfine (Nat.cast_nonneg _)
      _ = ((s0.numCases - 1 : Nat) : K) * (s0.numDivisions : K) * δ := by ring
      _ ≤ M * δ := mul_le_mul_of_nonneg_right h1 hδ
  have hsp' : s0.spacing ≠ .other := by rw [hsp]; decide
  obtain ⟨hI, hJ⟩ := tinv_init (Good := Good) (δ := δ) (D := dist1 sol0.const goal) hs hkind' hsp' hN hM1
  have hconv := loop_converges hs hkind' hF hfine hT.guarded hδ hδ' hg0 hgoal hR hM1 hMD fuel (n := n) Exec.start hI hJ (by simp)
  obtain ⟨heq, hfin⟩ := stepLoop_guarded (L := L) hT fuel s1 n [] hconv (by simp)
  obtain ⟨pre, p, h1, h2, -, h4, h5, -⟩ := C89_target hs hkind' hgoal hF hT.guarded hδ hδ' hg0 hR hM1 hMD fuel n hfuel
  obtain ⟨-, -, h3, hstop, -⟩ := loop_enough hs hkind' hF hT.guarded hδ hδ' hg0 hgoal hR hM1 hMD fuel (n := n) Exec.start hI hJ
    (by simpa using hfuel)
  rw [heq]
  rw [h2] at hconv hfin
  refine ⟨pre, p, h1, h2, ?_, fun q hq => ⟨hconv q hq, hfin q hq⟩, h5⟩
  obtain ⟨ts, hS⟩ := exec_sinv hs hkind' hsp' (fun hk => ⟨by have := (hF.bisection hk).1; omega, fun h => by rw [hsp] at h; cases h⟩) h3
  have hf := (exec_frame hs h3).1
  have hctr : (stepLoop L (guarded solve R Good δ) fuel s1 n []).strat.ctr =
      (stepLoop L (guarded solve R Good δ) fuel s1 n []).strat.numCases := by
    rcases Nat.lt_or_ge (stepLoop L (guarded solve R Good δ) fuel s1 n []).strat.ctr
      (stepLoop L (guarded solve R Good δ) fuel s1 n []).strat.numCases with h | h
    · obtain ⟨g, s', h6⟩ := (next_total_converged hs hkind' hf hS (Or.inr ⟨pre, p, h2, h4⟩)).1 h
      rw [hstop] at h6; cases h6
    · exact le_antisymm hS.ctr_le h
  have hcnt := hS.count
  have hcas := hS.cases_
  rw [h2, List.dropLast_concat] at hcnt hcas
  have h0 : failures pre = 0 := by
    unfold failures
    rw [List.length_eq_zero_iff, List.filter_eq_nil_iff]
    intro q hq
    simp [hconv q (List.mem_append_left _ hq)]
  rw [h0] at hcnt hcas
  omega

/-- C91 for a list of steps, with a solver of which nothing is known but what it does near solutions:
`run_continuation_set` returns, every step has solved its cases and no more, all of them converged to fine solutions, and
the last one is for the constants that are asked for last. -/
theorem C91_plan (hnames : names.Nodup) (hT : TracksNear solve R Good Fine δ) (hδ : 0 ≤ δ)
    (hδ' : δ < 9 * 10 ^ 99) {ss : List (Strat K α)} {guess : Traj K α} {final : List K}
    (hplan : FinePlan L names R δ M guess.const ss final) (hlen : names.length = guess.const.length)
    (hg : Good guess.const guess.data) (fuel : Nat) (hfuel : 2 * M + 1 ≤ fuel) :
    ∃ sols, runContinuationSet L solve names fuel (some ss) guess = .returned sols ∧
      sols.map List.length = ss.map Strat.numCases ∧
      (∀ l ∈ sols, ∀ sol ∈ l, sol.converged = true ∧ Fine sol.const sol.data) ∧
      (ss ≠ [] → ∃ pre l sol, sols = pre ++ [l ++ [sol]] ∧ sol.const = final) := by
  have main : ∀ (ss : List (Strat K α)) (guess : Traj K α) (n : Nat) (acc : List (List (Traj K α))),
      FinePlan L names R δ M guess.const ss final → names.length = guess.const.length → Good guess.const guess.data →
      ∃ sols, runSteps L solve names fuel ss guess n acc = .returned (acc ++ sols) ∧
        sols.map List.length = ss.map Strat.numCases ∧
        (∀ l ∈ sols, ∀ sol ∈ l, sol.converged = true ∧ Fine sol.const sol.data) ∧
        (ss ≠ [] → ∃ pre l sol, sols = pre ++ [l ++ [sol]] ∧ sol.const = final) := by
    intro ss
    induction ss with
    | nil =>
      intro guess n acc _ _ _
      exact ⟨[], by simp [runSteps], rfl, by simp, by simp⟩
    | cons s rest ih =>
      intro guess n acc hplan hlen hg
      cases hplan with
      | @cons _ goal _ _ _ hk hsp hN hkeys hmem hgoal hfine hR hM hrest =>
        obtain ⟨vars', hv⟩ := manualInitVars_total (L := L) (sp := s.spacing) (n := s.numCases) hlen s.vars hmem
        obtain ⟨s1, hinit⟩ : ∃ s1, s.reset.init L guess names = .ok s1 := by
          rcases hk with hk | ⟨hk, -⟩ <;>
            simp [Strat.init, Strat.reset, hk, Strat.manualInit, hv, bind, Except.bind]
        have hs : Starts L s.reset guess names s1 := ⟨hkeys, rfl, hnames, hlen, hinit⟩
        obtain ⟨pre, p, h1, h2, h3, h4, h5⟩ := near_target (goal := goal) hs hk hsp hN hgoal hfine hT hδ hδ' hg hR hM fuel n hfuel
        have hRg : R goal := by
          refine hR 1 goal zero_le_one le_rfl ⟨hgoal.1, fun j nm v hj hv => ?_⟩
          rw [hgoal.2 j nm v hj hv]
          cases s.targets.lookup nm <;> simp [between]
        have hp := h4 p (by simp)
        rw [h5] at hp
        obtain ⟨sols, h7, h8, h9, h10⟩ := ih p.2 (stepLoop L solve fuel s1 n []).calls
          (acc ++ [(stepLoop L solve fuel s1 n []).trace.map Prod.snd])
          (by rw [h5]; exact hrest) (by rw [h5, hgoal.1]; exact hlen) (by rw [h5]; exact hT.good _ _ hRg hp.2)
        refine ⟨(stepLoop L solve fuel s1 n []).trace.map Prod.snd :: sols, ?_, ?_, ?_, ?_⟩
        · unfold runSteps
          rw [hinit]
          simp only [h1]
          rw [show (((stepLoop L solve fuel s1 n []).trace.map Prod.snd).getLast?).getD guess = p.2 by rw [h2]; simp, h7]
          simp
        · rw [List.map_cons, List.map_cons, h8, List.length_map, h2, h3]
          rfl
        · intro l hl sol hsol
          rcases List.mem_cons.1 hl with rfl | hl
          · rw [h2] at hsol
            obtain ⟨q, hq, rfl⟩ := List.mem_map.1 hsol
            exact h4 q hq
          · exact h9 l hl sol hsol
        · intro _
          by_cases hr : rest = []
          · subst hr
            cases hrest
            have hs0 : sols = [] := by simpa using h8
            subst hs0
            exact ⟨[], pre.map Prod.snd, p.2, by rw [h2]; simp, h5⟩
          · obtain ⟨pre', l, sol, h11, h12⟩ := h10 hr
            exact ⟨(stepLoop L solve fuel s1 n []).trace.map Prod.snd :: pre', l, sol, by rw [h11]; rfl, h12⟩
  obtain ⟨sols, h1, h2⟩ := main ss guess 0 [] hplan hlen hg
  exact ⟨sols, by simpa [runContinuationSet] using h1, h2⟩

end

/-! ### an example -/

namespace Wit

/-- A solver that raises if its guess is too far from the solution. -/
def strict4 : Nat → Traj ℚ (List ℚ) → Py (Traj ℚ (List ℚ)) := fun _ g =>
  if dist1 g.data g.const ≤ 1 / 4 then .ok { g with converged := true, data := g.const } else .error .valueError

theorem strict4_tracks : TracksNear strict4 (fun _ => True) (fun c d => d = c) (fun c d => d = c) (1 / 4) := by
  refine ⟨fun n g c _ _ hg hd => ?_, fun _ _ _ h => h⟩
  subst hg
  exact ⟨{ g with converged := true, data := g.const }, by unfold strict4; rw [if_pos hd], rfl, rfl, rfl⟩

/-- Bisection of `a` from `0` to `1` with five cases, and a manual step of `b` from `5` to `6` with as many. -/
theorem planF : FinePlan idLog names (fun _ => True) (1 / 4) 12 [0, 5]
    [(Strat.newBisection 5 1 2 : Strat ℚ (List ℚ)).const "a" 1, manQ] [1, 6] := by
  refine .cons (goal := [1, 5]) (Or.inr ⟨rfl, by decide⟩) rfl (by decide) (by decide) (by decide) ?_ (by decide +kernel)
    (fun _ _ _ _ _ => trivial) (by decide) ?_
  · refine ⟨rfl, fun j n v hn hv => ?_⟩
    match j with
    | 0 => cases hn; cases hv; decide
    | 1 => cases hn; cases hv; decide
    | j + 2 => simp at hv
  refine .cons (goal := [1, 6]) (Or.inl rfl) rfl (by decide) (by decide) (by decide) ?_ (by decide +kernel)
    (fun _ _ _ _ _ => trivial) (by decide) (.nil _)
  refine ⟨rfl, fun j n v hn hv => ?_⟩
  match j with
  | 0 => cases hn; cases hv; decide
  | 1 => cases hn; cases hv; decide
  | j + 2 => simp at hv

end Wit

example := C91_plan (by decide) Wit.strict4_tracks (by norm_num) (by norm_num) Wit.planF (guess := ⟨[0, 5], true, [0, 5]⟩)
  rfl rfl 25 (by decide)

/-- With two cases the solver of the example raises, and so does the continuation. -/
example : (match runContinuationSet Wit.idLog Wit.strict4 Wit.names 25 (some [Wit.bisQ]) ⟨[0, 5], true, [0, 5]⟩ with
    | .raised e => some e
    | _ => none) = some .valueError := by decide +kernel

end Beluga.Cont
