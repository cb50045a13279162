import Verif.Symbolic.Regularise

/-! # Inequality constraints (C23, C24) -/

namespace Beluga.Sym

open Expr

/-! ### C23 -/

/-- There is one function of activator, bounds and value which is a barrier on the interval, and each 'utm' functor
that succeeds removes one two-sided constraint and adds exactly that function of the constraint's expression to the
cost of the same part (initial, path, terminal); every other cost and constraint is untouched. -/
theorem C23_barrier : ∃ B : ℝ → ℝ → ℝ → ℝ → ℝ, Barriers B ∧
    ∀ p p', utm p = .ok p' → ∃ loc i c a lo hi, loc ≤ 2 ∧ (p.consAt loc)[i]? = some c ∧ c.activator = some a ∧
      c.lower = some lo ∧ c.upper = some hi ∧ p'.consAt loc = (p.consAt loc).eraseIdx i ∧
      (∀ U ρ, eval (real U) ρ (p'.costAt loc) = eval (real U) ρ (p.costAt loc) +
        B (eval (real U) ρ a) (eval (real U) ρ lo) (eval (real U) ρ hi) (eval (real U) ρ c.expr)) ∧
      ∀ l, l ≤ 2 → l ≠ loc → p'.consAt l = p.consAt l ∧ p'.costAt l = p.costAt l := by
  refine ⟨utmValue, barriers_utmValue, fun p p' hu => ?_⟩
  obtain ⟨loc, i, c, k, a, lo, hi, hl, hc, hm, ha, hk, hak, hlo, hhi, rfl⟩ := utm_inv hu
  refine ⟨loc, i, c, a, lo, hi, hl, hc, ha, hlo, hhi, ?_, fun U ρ => ?_, fun l h1 h2 => ?_⟩
  · rcases loc with _ | _ | _ | loc
    · rfl
    · rfl
    · rfl
    · omega
  · rw [← eval_utmTerm]
    rcases loc with _ | _ | _ | loc
    · rfl
    · rfl
    · rfl
    · omega
  · rcases loc with _ | _ | _ | loc <;> rcases l with _ | _ | _ | l <;>
      first | omega | exact ⟨rfl, rfl⟩

/-! ### C24 -/

/-- The two-sided constraints of a problem. -/
def Prob.inequalities (p : Prob) : List Con := (p.initial ++ p.path ++ p.terminal).filter Con.twoSided

/-- What regularisation should achieve, from `p` to `p'`: no two-sided constraint is left; all else is the problem
rewritten by one meaning-preserving `f` that removes the controls bounded by 'epstrig', which are replaced in the list
of controls; each cost grows by one penalty for each two-sided constraint of its part; one mapper per constraint. -/
structure Regularised (p p' : Prob) : Prop where
  none_left : p'.inequalities = []
  rest : ∃ f : Expr → Expr, p'.bare = (p.mapEqs f).bare ∧
    (∀ U ρ, TrigEnv p U ρ → ∀ e, eval (real U) ρ (f e) = eval (real U) ρ e) ∧
    (∀ e, ∀ s ∈ (f e).free, s ∉ epsControls p.path) ∧ ∀ e, (∀ s ∈ e.free, s ∉ epsControls p.path) → f e = e
  cost : ∃ B : ℝ → ℝ → ℝ → ℝ → ℝ, Barriers B ∧
    ∀ U ρ, TrigEnv p U ρ → ∀ loc, loc ≤ 2 →
      eval (real U) ρ (p'.costAt loc) = eval (real U) ρ (p.costAt loc) + penalties B U ρ (p.consAt loc)
  controls : p'.controls = p.controls.map fun u => if u ∈ epsControls p.path then trigName u else u
  chain : ∃ tags, p'.chain = p.chain ++ tags ∧ tags.length = p.inequalities.length

theorem ineqSteps_ok {cons : List Con} (h : ∀ c ∈ cons, c.twoSided = true → c.method ≠ .other) :
    ∃ steps, ineqSteps cons = .ok steps ∧ (∀ s ∈ steps, s = .utm ∨ s = .epsTrig) ∧
      steps.count .utm = countM .utm cons ∧ steps.count .epsTrig = countM .epstrig cons := by
  induction cons with
  | nil => exact ⟨[], rfl, by simp, by simp [countM], by simp [countM]⟩
  | cons c cs ih =>
    obtain ⟨steps, h1, h2, h3, h4⟩ := ih fun c hc => h c (by simp [hc])
    cases ht : c.twoSided with
    | false =>
      refine ⟨steps, ?_, h2, ?_, ?_⟩
      · rw [ineqSteps, List.filter_cons_of_neg (by simp [ht])]; exact h1
      · simp only [countM, List.countP_cons, ht] at h3 ⊢; simpa using h3
      · simp only [countM, List.countP_cons, ht] at h4 ⊢; simpa using h4
    | true =>
      have hne := h c (by simp) ht
      cases hm : c.method with
      | other => exact absurd hm hne
      | utm =>
        refine ⟨.utm :: steps, ?_, ?_, ?_, ?_⟩
        · rw [ineqSteps, List.filter_cons_of_pos ht, List.mapM_cons, hm]
          rw [ineqSteps] at h1
          rw [h1]; rfl
        · intro s hs
          rcases List.mem_cons.1 hs with rfl | hs
          · exact Or.inl rfl
          · exact h2 s hs
        · simp only [countM, List.countP_cons, ht, hm, List.count_cons] at h3 ⊢; simpa using h3
        · simp only [countM, List.countP_cons, ht, hm, List.count_cons] at h4 ⊢; simpa using h4
      | epstrig =>
        refine ⟨.epsTrig :: steps, ?_, ?_, ?_, ?_⟩
        · rw [ineqSteps, List.filter_cons_of_pos ht, List.mapM_cons, hm]
          rw [ineqSteps] at h1
          rw [h1]; rfl
        · intro s hs
          rcases List.mem_cons.1 hs with rfl | hs
          · exact Or.inr rfl
          · exact h2 s hs
        · simp only [countM, List.countP_cons, ht, hm, List.count_cons] at h3 ⊢; simpa using h3
        · simp only [countM, List.countP_cons, ht, hm, List.count_cons] at h4 ⊢; simpa using h4

theorem countM_append (m : Meth) (a b : List Con) : countM m (a ++ b) = countM m a + countM m b :=
  List.countP_append

theorem two_sided_count {l : List Con} (h : ∀ c ∈ l, c.twoSided = true → c.method ≠ .other) :
    (l.filter Con.twoSided).length = countM .utm l + countM .epstrig l := by
  rw [← List.countP_eq_length_filter]
  induction l with
  | nil => rfl
  | cons c cs ih =>
    have := ih fun c hc => h c (by simp [hc])
    simp only [countM, List.countP_cons] at this ⊢
    cases ht : c.twoSided with
    | false => simp; exact this
    | true =>
      have := h c (by simp) ht
      cases hm : c.method <;> simp_all <;> omega

theorem Regularisable.known_all {C : List Name} {p : Prob} (h : Regularisable C p) :
    ∀ c ∈ p.initial ++ p.path ++ p.terminal, c.twoSided = true → c.method ≠ .other := by
  intro c hc ht
  rw [List.mem_append, List.mem_append] at hc
  rcases hc with (hc | hc) | hc
  · rw [h.ends c (by simp [hc]) ht]; simp
  · exact h.known c hc ht
  · rw [h.ends c (by simp [hc]) ht]; simp

theorem Regularisable.ends_eps {C : List Name} {p : Prob} (h : Regularisable C p) :
    countM .epstrig p.initial = 0 ∧ countM .epstrig p.terminal = 0 := by
  constructor
  · apply countM_eq_zero
    rintro c hc ⟨hm, ht⟩
    rw [h.ends c (by simp [hc]) ht] at hm; cases hm
  · apply countM_eq_zero
    rintro c hc ⟨hm, ht⟩
    rw [h.ends c (by simp [hc]) ht] at hm; cases hm

theorem Regularisable.inequalities_length {C : List Name} {p : Prob} (h : Regularisable C p) :
    p.inequalities.length = leftUtm p + leftEps p := by
  have := h.ends_eps
  rw [Prob.inequalities, two_sided_count h.known_all]
  simp only [countM_append, leftUtm, leftEps]
  omega

/-- The property for the problems that the documentation allows: every mixture and order of two-sided and equality
constraints.  Missing from the full property: 'epstrig' on a boundary constraint (see `C24_violated`), two 'epstrig'
constraints on one control. -/
theorem C24_regularised_partial (S : Sympy) (p : Prob) (hr : Regularisable p.controls p) (hnd : p.controls.Nodup) :
    ∃ steps p', ineqSteps (p.initial ++ p.path ++ p.terminal) = .ok steps ∧ runSteps S steps p = .ok p' ∧
      Regularised p p' := by
  have hE0 : ∀ s ∈ epsControls p.path, s ∈ p.controls := by
    intro s hs
    obtain ⟨c, hc, hm, he⟩ := mem_epsControls.1 hs
    obtain ⟨u, _, _, _, e1, hu, -⟩ := hr.eps c hc hm
    rw [e1] at he; cases he; exact hu
  obtain ⟨steps, h1, h2, h3, h4⟩ := ineqSteps_ok hr.known_all
  have hends := hr.ends_eps
  obtain ⟨p', f, h5, h6, h7, h8⟩ := regInv_run (S := S) hnd hE0 steps p id h2 (RegInv.refl hr)
    (by rw [h3]; simp only [countM_append, leftUtm]) (by rw [h4]; simp [countM_append, leftEps, hends])
  have hnone : p'.inequalities = [] := by
    apply List.eq_nil_of_length_eq_zero
    rw [h6.ok.inequalities_length, h7, h8]
  have hno : ∀ c ∈ p'.initial ++ p'.path ++ p'.terminal, c.twoSided = false := by
    intro c hc
    rw [Prob.inequalities, List.filter_eq_nil_iff] at hnone
    simpa using hnone c hc
  have hE' : epsControls p'.path = [] := by
    rw [List.eq_nil_iff_forall_not_mem]
    intro s hs
    obtain ⟨c, hc, hm, he⟩ := mem_epsControls.1 hs
    obtain ⟨u, a, lo, hi, -, -, -, -, e1, e2, -⟩ := h6.ok.eps c hc hm
    have := twoSided_iff.2 ⟨lo, hi, e1, e2⟩
    rw [hno c (by simp [hc])] at this; cases this
  refine ⟨steps, p', h1, h5, hnone, ⟨f, h6.rest, h6.meaning, fun e s hs h0 => ?_, h6.fixes⟩, ⟨utmValue, ?_, ?_⟩, ?_, ?_⟩
  · have := h6.gone e s hs h0
    rw [hE'] at this; cases this
  · exact barriers_utmValue
  · intro U ρ hE loc hl
    rw [← h6.cost U ρ hE loc]
    have : penalties utmValue U ρ (p'.consAt loc) = 0 := by
      rw [penalties, List.filter_eq_nil_iff.2]
      · rfl
      · intro c hc
        have : c ∈ p'.initial ++ p'.path ++ p'.terminal := by
          rcases loc with _ | _ | _ <;> simp only [Prob.consAt] at hc <;> simp [hc]
        simp [hno c this]
    rw [this, add_zero]
  · rw [h6.controls, hE']
    simp
  · obtain ⟨tags, t1, t2⟩ := h6.chain
    refine ⟨tags, t1, ?_⟩
    rw [hr.inequalities_length]
    omega

/-- Both methods treat all two-sided constraints, after the time has become a state and before anything else. -/
theorem indirectSteps_split {p : Prob} {steps : List Step} (h : ineqSteps (p.initial ++ p.path ++ p.terminal) = .ok steps) :
    (∀ o : Opts, o.controlMethod ≠ .other → o.momentumShift = true → ∃ rest,
      indirectSteps o p = .ok (.momentumShift :: steps ++ rest) ∧ ∀ s ∈ rest, s ≠ .utm ∧ s ≠ .epsTrig) ∧
    (∀ jac norm : Bool, ∃ rest, directSteps jac true norm p = .ok (.momentumShift :: steps ++ rest) ∧
      ∀ s ∈ rest, s ≠ .utm ∧ s ≠ .epsTrig) := by
  constructor
  · intro o ho hm
    obtain ⟨jac, ctl, me, ms, nt⟩ := o
    cases hm
    unfold indirectSteps
    rw [h]
    cases ctl with
    | other => exact absurd rfl ho
    | algebraic =>
      refine ⟨(if p.switches.length > 0 then [.rashs] else []) ++ [.dualize me, .algebraic] ++
        (if nt then [.normalizeTime] else []) ++ [.squash] ++ [], ?_, ?_⟩
      · simp [bind, Except.bind]
      · intro s hs
        simp only [List.mem_append, List.mem_cons, List.not_mem_nil, or_false] at hs
        split at hs <;> split at hs <;> simp only [List.mem_cons, List.not_mem_nil, or_false, false_or] at hs <;> aesop
    | differential =>
      refine ⟨(if p.switches.length > 0 then [.rashs] else []) ++ [.dualize me, .differential me] ++
        (if nt then [.normalizeTime] else []) ++ [.squash] ++ (if jac then [.jacobians] else []), ?_, ?_⟩
      · simp [bind, Except.bind]
      · intro s hs
        simp only [List.mem_append, List.mem_cons, List.not_mem_nil, or_false] at hs
        split at hs <;> split at hs <;> split at hs <;>
          simp only [List.mem_cons, List.not_mem_nil, or_false, false_or] at hs <;> simp_all <;> aesop
  · intro jac norm
    unfold directSteps
    rw [h]
    refine ⟨(if p.switches.length > 0 then [.rashs] else []) ++ (if norm then [.normalizeTime] else []) ++
      (if jac then [.jacobians] else []), by simp [bind, Except.bind], ?_⟩
    intro s hs
    simp only [List.mem_append] at hs
    split at hs <;> split at hs <;> split at hs <;>
      simp only [List.mem_cons, List.not_mem_nil, or_false, false_or] at hs <;> aesop

/-- The same inside the pipeline, where the time has become a state first; no later functor treats constraints. -/
theorem C24_pipeline_partial (S : Sympy) (p : Prob) (hr : Regularisable p.controls p) (hnd : p.controls.Nodup) :
    ∃ steps p1 p', (∀ o : Opts, o.controlMethod ≠ .other → o.momentumShift = true → ∃ rest,
        indirectSteps o p = .ok (.momentumShift :: steps ++ rest) ∧ ∀ s ∈ rest, s ≠ .utm ∧ s ≠ .epsTrig) ∧
      (∀ jac norm : Bool, ∃ rest, directSteps jac true norm p = .ok (.momentumShift :: steps ++ rest) ∧
        ∀ s ∈ rest, s ≠ .utm ∧ s ≠ .epsTrig) ∧ momentumShift p = .ok p1 ∧
      runSteps S (.momentumShift :: steps) p = .ok p' ∧ Regularised p1 p' ∧
      p1.initial = p.initial ∧ p1.path = p.path ∧ p1.terminal = p.terminal ∧ p1.costInitial = p.costInitial ∧
      p1.costPath = p.costPath ∧ p1.costTerminal = p.costTerminal ∧ p1.controls = p.controls := by
  cases hp : momentumShift p with
  | error e => exfalso; rw [momentumShift, if_neg (by simp [hr.sympified])] at hp; cases hp
  | ok p1 =>
    have hp' := hp
    rw [momentumShift, if_neg (by simp [hr.sympified])] at hp'
    have hr1 : Regularisable p1.controls p1 := by
      cases hp'
      exact ⟨hr.sympified, hr.ends, hr.known, hr.act, hr.eps, hr.once, hr.fresh⟩
    have hsame : p1.initial = p.initial ∧ p1.path = p.path ∧ p1.terminal = p.terminal ∧
      p1.costInitial = p.costInitial ∧ p1.costPath = p.costPath ∧ p1.costTerminal = p.costTerminal ∧
      p1.controls = p.controls := by
      cases hp'
      exact ⟨rfl, rfl, rfl, rfl, rfl, rfl, rfl⟩
    obtain ⟨steps, p', h1, h2, h3⟩ := C24_regularised_partial S p1 hr1 (by rw [hsame.2.2.2.2.2.2]; exact hnd)
    have hsp := indirectSteps_split (p := p) (steps := steps) (by rw [← h1, hsame.1, hsame.2.1, hsame.2.2.1])
    refine ⟨steps, p1, p', hsp.1, hsp.2, rfl, ?_, h3, hsame⟩
    rw [runSteps, List.foldlM_cons]
    change (momentumShift p >>= _) = _
    rw [hp]
    exact h2

/-- A boundary constraint with method 'epstrig' makes the pipeline fail, although the constraint is reported to be
handled: the functor only looks at path constraints. -/
theorem C24_violated (S : Sympy) (p : Prob) (hk : ∀ c ∈ p.initial ++ p.path ++ p.terminal, c.twoSided = true →
    c.method ≠ .other) (hb : ∃ c ∈ p.initial ++ p.terminal, c.twoSided = true ∧ c.method = .epstrig)
    (hp : ∀ c ∈ p.path, c.method ≠ .epstrig) :
    ∃ steps e, ineqSteps (p.initial ++ p.path ++ p.terminal) = .ok steps ∧ runSteps S steps p = .error e := by
  obtain ⟨steps, h1, h2, h3, h4⟩ := ineqSteps_ok hk
  have hpos : 0 < steps.count .epsTrig := by
    obtain ⟨c, hc, ht, hm⟩ := hb
    rw [h4, countM, List.countP_pos_iff]
    refine ⟨c, ?_, by simp [ht, hm]⟩
    simp only [List.mem_append] at hc ⊢
    tauto
  have run : ∀ (steps : List Step) (p : Prob), (∀ s ∈ steps, s = .utm ∨ s = .epsTrig) → 0 < steps.count .epsTrig →
      (∀ c ∈ p.path, c.method ≠ .epstrig) → ∃ e, runSteps S steps p = .error e := by
    intro steps
    induction steps with
    | nil => intro p _ h; simp at h
    | cons s steps ih =>
      intro p hs hn hp
      have ih : ∀ (p : Prob) (hs : ∀ s ∈ steps, s = .utm ∨ s = .epsTrig) (hn : 0 < steps.count .epsTrig)
        (hp : ∀ c ∈ p.path, c.method ≠ .epstrig), ∃ e, runSteps S steps p = .error e := ih
      rcases hs s (by simp) with rfl | rfl
      · cases hu : utm p with
        | error e =>
          refine ⟨e, ?_⟩
          rw [runSteps, List.foldlM_cons]
          change (utm p >>= _) = _
          rw [hu]; rfl
        | ok p1 =>
          obtain ⟨loc, i, c, k, a, lo, hi, hl, hc, -, -, -, -, -, -, rfl⟩ := utm_inv hu
          obtain ⟨e, he⟩ := ih (hs := fun s hs' => hs s (by simp [hs'])) (hn := by simpa [List.count_cons] using hn)
            (p := { p with
              costInitial := if loc = 0 then p.costInitial + utmTerm a c.expr lo hi else p.costInitial
              costPath := if loc = 1 then p.costPath + utmTerm a c.expr lo hi else p.costPath
              costTerminal := if loc = 2 then p.costTerminal + utmTerm a c.expr lo hi else p.costTerminal
              initial := if loc = 0 then p.initial.eraseIdx i else p.initial
              path := if loc = 1 then p.path.eraseIdx i else p.path
              terminal := if loc = 2 then p.terminal.eraseIdx i else p.terminal
              chain := p.chain ++ [.identity] }) (hp := by
                intro c hc
                simp only at hc
                split at hc
                · exact hp c (List.mem_of_mem_eraseIdx hc)
                · exact hp c hc)
          refine ⟨e, ?_⟩
          rw [runSteps, List.foldlM_cons]
          change (utm p >>= _) = _
          rw [hu]; exact he
      · cases hu : epsTrig p with
        | error e =>
          refine ⟨e, ?_⟩
          rw [runSteps, List.foldlM_cons]
          change (epsTrig p >>= _) = _
          rw [hu]; rfl
        | ok p1 =>
          obtain ⟨i, c, k, u, a, lo, hi, hc, hm, -⟩ := epsTrig_inv hu
          exact absurd hm (hp c (List.mem_of_getElem? hc))
  obtain ⟨e, he⟩ := run steps p h2 hpos hp
  exact ⟨steps, e, h1, he⟩

/-- Two path inequalities (one per method), a terminal one, and equality constraints in between. -/
def exC : Prob where
  states := [⟨"x", sym "u"⟩]
  controls := ["u"]
  constants := ["eps"]
  initial := [{ expr := sym "x" }]
  path := [{ expr := sym "u", lower := some (-1), upper := some 1, activator := some (sym "eps"), method := .epstrig },
    { expr := sym "x", lower := some 0, upper := some 2, activator := some (sym "eps") }]
  terminal := [{ expr := sym "x", lower := some 0, upper := some 2, activator := some (sym "eps") },
    { expr := sym "x" - 1 }]
  costPath := sym "u" * sym "u"
  sympified := true

/-- A sympy that is never asked. -/
def noSympy : Sympy := ⟨fun _ _ => [], fun _ _ => .error .valueError, fun _ _ => 0⟩

example : Regularisable exC.controls exC where
  sympified := rfl
  ends := by decide
  known := by decide
  act := by
    intro c hc ht hm
    refine ⟨"eps", by decide, ?_⟩
    revert c; decide
  eps := by
    intro c hc hm
    refine ⟨"u", sym "eps", -1, 1, ?_⟩
    revert c; decide
  once := by decide
  fresh := by decide

/-- Regularise all inequalities. -/
def regularise (p : Prob) : Py Prob := do
  let steps ← ineqSteps (p.initial ++ p.path ++ p.terminal)
  runSteps noSympy steps p

example : (regularise exC).map (fun p => (p.controls, p.inequalities, p.initial.length, p.terminal.length,
    p.chain.length)) = .ok (["_u_trig"], [], 1, 1, 3) := by decide +kernel

example : (regularise exC).map (fun p => p.states.map Dyn.eom) =
    .ok [(1 - -1) / 2 * fn .sin (sym "_u_trig") + (1 + -1) / 2] := by decide +kernel

/-- A bound at the terminal point with method 'epstrig'. -/
example : (regularise { exC with path := [], terminal := [{ expr := sym "x", lower := some 0, upper := some 2, activator := some (sym "eps"), method := .epstrig }] }).map Prob.controls =
    .error .runtimeWarning := by decide +kernel

end Beluga.Sym
