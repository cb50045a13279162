import Verif.Direct.Same
import Verif.Scope.Props

/-!
# C79: what the direct method compiles

A user who asks for `method='direct'` expects the stated problem to be solved: trajectories that follow the stated equations for some
control, satisfy the constraints, and have the least cost.  The compiled functions know neither controls nor costs.
-/

namespace Beluga.Direct

open Beluga.Sym Beluga.Sym.Expr Beluga.Num Beluga.Opt Beluga.Scope

/-! ### Specification -/

/-- At this point quantities and switches have the values of their definitions. -/
structure Valued (U : Name → Nat → ℝ → ℝ) (p : Prob) (σ : Env) : Prop where
  quantities : ∀ d ∈ p.quantities, σ d.name = eval (real U) σ d.expr
  switches : ∀ w ∈ p.switches, σ w.name = switchValue U σ w

/-- Two compiled problems that no solver can tell apart: all functions are the same. -/
structure Alike (P Q : Prob) : Prop where
  rates : ∀ (K : Type) [Field K] [LinearOrder K] (I : Interp K), derivFunc I Q = derivFunc I P
  quads : ∀ (K : Type) [Field K] [LinearOrder K], quadFunc (K := K) Q = quadFunc P
  ends : ∀ (K : Type) [Field K] [LinearOrder K] (I : Interp K), bcFunc I Q = bcFunc I P
  jacobians : ∀ (K : Type) [Field K] [LinearOrder K] (I : Interp K), derivJac I Q = derivJac I P ∧ bcJac I Q = bcJac I P

/-- The arguments of the compiled functions at a point. -/
noncomputable abbrev rates (U : Name → Nat → ℝ → ℝ) (Q : Prob) (σ : Env) : Py (List ℝ) :=
  derivFunc (real U) Q ((sts Q).map σ) (Q.parameters.map σ) (Q.constants.map σ)

@[inherit_doc rates] noncomputable abbrev ends (U : Name → Nat → ℝ → ℝ) (Q : Prob) (σ₀ σ₁ : Env) : Py (List ℝ) :=
  bcFunc (real U) Q ((sts Q).map σ₀) ((qds Q).map σ₀) ((sts Q).map σ₁) ((qds Q).map σ₁) (Q.parameters.map σ₀)
    (Q.constraintParams.map σ₀) (Q.constants.map σ₀)

/-! ### Lemmas -/

theorem Repathed.refl (p : Prob) : Repathed p p := ⟨_, _, _, _, _, rfl⟩

theorem Repathed.symm {p q : Prob} (h : Repathed p q) : Repathed q p := by
  obtain ⟨a, b, c, l, ch, rfl⟩ := h
  exact ⟨_, _, _, _, _, rfl⟩

theorem Repathed.trans {p q r : Prob} (h : Repathed p q) (h' : Repathed q r) : Repathed p r := by
  obtain ⟨a, b, c, l, ch, rfl⟩ := h
  obtain ⟨a, b, c, l, ch, rfl⟩ := h'
  exact ⟨_, _, _, _, _, rfl⟩

theorem Recosted.repathed {p q : Prob} (h : Recosted p q) : Repathed p q := by
  obtain ⟨a, b, c, rfl⟩ := h
  exact ⟨_, _, _, _, _, rfl⟩

theorem Repathed.alike {p q : Prob} (h : Repathed p q) : Alike p q := by
  obtain ⟨a, b, c, l, ch, rfl⟩ := h
  exact ⟨fun _ _ _ _ => rfl, fun _ _ _ => rfl, fun _ _ _ _ => rfl, fun _ _ _ _ => ⟨rfl, rfl⟩⟩

/-- The problems between the functors of `make_direct_method`. -/
structure Path (S : Sympy) (o : DirectOpts) (p p1 p2 p3 q q1 Q : Prob) (ineq : List Step) : Prop where
  pre : preprocess p = .ok p1
  shift : runSteps S (if o.momentumShift then [.momentumShift] else []) p1 = .ok p2
  ineqs : ineqSteps (p1.initial ++ p1.path ++ p1.terminal) = .ok ineq
  regular : runSteps S ineq p2 = .ok p3
  switches : runSteps S (if p1.switches.length > 0 then [.rashs] else []) p3 = .ok q
  time : runSteps S (if o.normalizeTime then [.normalizeTime] else []) q = .ok q1
  jac : runSteps S (if o.analyticalJacobian then [.jacobians] else []) q1 = .ok Q

theorem direct_path {S : Sympy} {o : DirectOpts} {p Q : Prob} (h : direct S o p = .ok Q) :
    ∃ p1 p2 p3 q q1 ineq, Path S o p p1 p2 p3 q q1 Q ineq := by
  rw [direct] at h
  obtain ⟨p1, h1, h⟩ := bind_ok h
  obtain ⟨steps, h2, h⟩ := bind_ok h
  rw [directSteps] at h2
  obtain ⟨ineq, hineq, h2⟩ := bind_ok h2
  cases h2
  rw [List.append_assoc, List.append_assoc, List.append_assoc, runSteps_append] at h
  obtain ⟨p2, g2, h⟩ := bind_ok h
  rw [runSteps_append] at h
  obtain ⟨p3, g3, h⟩ := bind_ok h
  rw [runSteps_append] at h
  obtain ⟨q, g4, h⟩ := bind_ok h
  rw [runSteps_append] at h
  obtain ⟨q1, g5, h⟩ := bind_ok h
  exact ⟨p1, p2, p3, q, q1, ineq, h1, g2, hineq, g3, g4, g5, h⟩

theorem path_direct {S : Sympy} {o : DirectOpts} {p p1 p2 p3 q q1 Q : Prob} {ineq : List Step} (h : Path S o p p1 p2 p3 q q1 Q ineq) :
    direct S o p = .ok Q := by
  rw [direct, h.pre, ok_bind, directSteps, h.ineqs, ok_bind, ok_bind, List.append_assoc, List.append_assoc, List.append_assoc,
    runSteps_append, h.shift, ok_bind, runSteps_append, h.regular, ok_bind, runSteps_append, h.switches, ok_bind, runSteps_append,
    h.time, ok_bind, h.jac]

/-- A step that may be left out. -/
theorem optional_rel {R : Prob → Prob → Prop} {S : Sympy} {b : Bool} {s : Step}
    (hs : ∀ p q p', R p q → s.run S p = .ok p' → ∃ q', s.run S q = .ok q' ∧ R p' q') {p q p' : Prob} (h : R p q)
    (hp : runSteps S (if b then [s] else []) p = .ok p') : ∃ q', runSteps S (if b then [s] else []) q = .ok q' ∧ R p' q' := by
  cases b with
  | true =>
    rw [if_pos rfl, runSteps_cons] at hp ⊢
    obtain ⟨r, hr, hp⟩ := bind_ok hp
    cases hp
    obtain ⟨q', h1, h2⟩ := hs p q p' h hr
    exact ⟨q', by rw [h1]; rfl, h2⟩
  | false =>
    cases hp
    exact ⟨q, rfl, h⟩

theorem ineq_recosted {S : Sympy} {steps : List Step} (hs : ∀ s ∈ steps, s = .epsTrig ∨ s = .utm) {p q p' : Prob} (h : Recosted p q)
    (hp : runSteps S steps p = .ok p') : ∃ q', runSteps S steps q = .ok q' ∧ Recosted p' q' := by
  induction steps generalizing p q with
  | nil => cases hp; exact ⟨q, rfl, h⟩
  | cons s steps ih =>
    rw [runSteps_cons] at hp ⊢
    obtain ⟨p1, h1, hp⟩ := bind_ok hp
    have : ∃ q1, s.run S q = .ok q1 ∧ Recosted p1 q1 := by
      rcases hs s (by simp) with rfl | rfl
      · exact eps_recosted h h1
      · exact utm_recosted h h1
    obtain ⟨q1, g1, g2⟩ := this
    rw [g1, ok_bind]
    exact ih (fun s h => hs s (List.mem_cons_of_mem _ h)) g2 hp

theorem utm_repathed {p p' : Prob} (hb : ∀ c ∈ p.initial ++ p.terminal, c.twoSided = false) (h : utm p = .ok p') : Repathed p p' := by
  obtain ⟨loc, i, c, k, a, lo, hi, hl, hc, -, -, -, -, h1, h2, rfl⟩ := (utm_inv h).shape
  have ht : c.twoSided = true := by rw [Con.twoSided, h1, h2]; rfl
  have hm : c ∈ p.consAt loc := List.mem_of_getElem? hc
  have h0 : loc ≠ 0 := by
    rintro rfl
    have := hb c (List.mem_append_left _ hm)
    rw [ht] at this; cases this
  have h2 : loc ≠ 2 := by
    rintro rfl
    have := hb c (List.mem_append_right _ hm)
    rw [ht] at this; cases this
  simp only [h0, h2, if_false]
  exact ⟨_, _, _, _, _, rfl⟩

theorem Repathed.bounds {p q : Prob} (h : Repathed p q) : q.initial = p.initial ∧ q.terminal = p.terminal := by
  obtain ⟨a, b, c, l, ch, rfl⟩ := h
  exact ⟨rfl, rfl⟩

theorem utms_repathed {S : Sympy} {steps : List Step} (hs : ∀ s ∈ steps, s = .utm) {p p' : Prob}
    (hb : ∀ c ∈ p.initial ++ p.terminal, c.twoSided = false) (h : runSteps S steps p = .ok p') : Repathed p p' := by
  induction steps generalizing p with
  | nil => cases h; exact .refl _
  | cons s steps ih =>
    rw [runSteps_cons] at h
    obtain ⟨p1, h1, h⟩ := bind_ok h
    rw [hs s (by simp)] at h1
    have h2 := utm_repathed hb h1
    obtain ⟨e1, e2⟩ := h2.bounds
    exact h2.trans (ih (fun s h => hs s (List.mem_cons_of_mem _ h)) (by rw [e1, e2]; exact hb) h)

/-- The two-sided constraints are path constraints with the method 'utm'. -/
structure Penalised (p : Prob) : Prop where
  ends : ∀ c ∈ p.initial ++ p.terminal, c.twoSided = false
  path : ∀ c ∈ p.path, c.twoSided = true → c.method = .utm

theorem Penalised.pre {p p1 : Prob} {f : Expr → Expr} (h : Penalised p) (hf : Pre p p1 f) : Penalised p1 := by
  constructor
  · intro c hc
    rw [hf.initial, hf.terminal, ← List.map_append] at hc
    obtain ⟨c0, h0, rfl⟩ := List.mem_map.1 hc
    rw [twoSided_rw]
    exact h.ends c0 h0
  · intro c hc ht
    rw [hf.path] at hc
    obtain ⟨c0, h0, rfl⟩ := List.mem_map.1 hc
    rw [twoSided_rw] at ht
    exact h.path c0 h0 ht

theorem Penalised.steps {p : Prob} (h : Penalised p) {ineq : List Step} (hi : ineqSteps (p.initial ++ p.path ++ p.terminal) = .ok ineq) :
    ∀ s ∈ ineq, s = .utm := by
  intro s hs
  rw [ineqSteps] at hi
  obtain ⟨c, hc, hs⟩ := forall₂_right (mapM_pairs hi) s hs
  rw [List.mem_filter] at hc
  have hm : c.method = .utm := by
    have h1 := hc.1
    simp only [List.mem_append] at h1
    rcases h1 with (h1 | h1) | h1
    · have := h.ends c (List.mem_append_left _ h1)
      rw [hc.2] at this; cases this
    · exact h.path c h1 hc.2
    · have := h.ends c (List.mem_append_right _ h1)
      rw [hc.2] at this; cases this
  rw [hm] at hs
  cases hs
  rfl

theorem shift_ends {S : Sympy} {b : Bool} {p p' : Prob} (h : runSteps S (if b then [.momentumShift] else []) p = .ok p') :
    p' = { (p : Prob) with states := p.states ++ (if b then [⟨p.ind, 1⟩] else []), ind := p'.ind, symmetries := p'.symmetries, chain := p'.chain } := by
  cases b with
  | true =>
    rw [if_pos rfl, runSteps_cons] at h
    obtain ⟨r, hr, h⟩ := bind_ok h
    cases h
    have := momentumShift_fields hr
    rw [this]
    rfl
  | false =>
    cases h
    simp

/-- What is left of the user's problem if time is not normalised. -/
structure Shape (o : DirectOpts) (p Q : Prob) (g : Expr → Expr) : Prop where
  states : Q.states = (p.states.map fun d => ⟨d.name, g d.eom⟩) ++ (if o.momentumShift then [⟨p.ind, 1⟩] else [])
  quads : Q.quads = p.quads.map fun d => ⟨d.name, g d.eom⟩
  initial : Q.initial = p.initial.map (Con.rw g)
  terminal : Q.terminal = p.terminal.map (Con.rw g)
  args : Q.parameters = p.parameters ∧ Q.constants = p.constants ∧ Q.constraintParams = p.constraintParams ∧ Q.controls = p.controls
  law : Q.controlLaw = []
  meaning : ∀ U σ, Valued U p σ → ∀ e, eval (real U) σ (g e) = eval (real U) σ e
  ready : Ready Q

theorem ready_jac {q Q : Prob} (h : Ready q) (hQ : Q = { q with dfdy := Q.dfdy, dfdp := Q.dfdp }) : Ready Q := by
  rw [hQ]
  exact ⟨h.path, h.ends, h.costs, h.start, h.sympified⟩

theorem mid_utms {S : Sympy} {P : Name → Prop} {T D : List Name} {steps : List Step} (hs : ∀ s ∈ steps, s = .utm) {p p' : Prob}
    (hm : Mid P T D p) (h : runSteps S steps p = .ok p') : Mid P T D p' := by
  induction steps generalizing p with
  | nil => cases h; exact hm
  | cons s steps ih =>
    rw [runSteps_cons] at h
    obtain ⟨p1, h1, h⟩ := bind_ok h
    rw [hs s (by simp)] at h1
    exact ih (fun s h => hs s (List.mem_cons_of_mem _ h)) (mid_utm hm h1) h

theorem jac_fields {S : Sympy} {b : Bool} {q Q : Prob} (h : runSteps S (if b then [.jacobians] else []) q = .ok Q) :
    Q = { (q : Prob) with dfdy := Q.dfdy, dfdp := Q.dfdp } := by
  cases b with
  | true =>
    rw [if_pos rfl, runSteps_cons] at h
    obtain ⟨r, hr, h⟩ := bind_ok h
    cases h
    exact (jacobians_fields hr).2.2.2.2.2
  | false => cases h; rfl

theorem shape {S : Sympy} {o : DirectOpts} {p Q : Prob} (hp : WellScoped { momentumShift := o.momentumShift } p) (hc : Penalised p)
    (hn : o.normalizeTime = false) (h : direct S o p = .ok Q) : ∃ g, Shape o p Q g := by
  obtain ⟨p1, p2, p3, q, q1, ineq, h⟩ := direct_path h
  obtain ⟨f, hf⟩ := preprocess_ok hp.acyclic h.pre
  have hc1 := hc.pre hf
  have hm1 := pre_mid hp h.pre
  have e2 := shift_ends h.shift
  have hm2 : Mid (CostName { momentumShift := o.momentumShift } p) [] (swts p) p2 := by
    have h2 := h.shift
    cases hb : o.momentumShift with
    | true =>
      rw [hb] at hm1 h2
      rw [if_pos rfl, runSteps_cons] at h2
      obtain ⟨r, hr, h2⟩ := bind_ok h2
      cases h2
      refine mid_shift ?_ hr
      rw [hf.ind]
      exact hm1
    | false =>
      rw [hb] at hm1 h2
      cases h2
      exact hm1
  have hutm := hc1.steps h.ineqs
  have hm3 := mid_utms hutm hm2 h.regular
  have r3 : Repathed p2 p3 := utms_repathed hutm (by rw [e2]; exact hc1.ends) h.regular
  have hlen : p1.switches.length = p3.switches.length := by rw [r3.quantities.2, e2]
  have h4 := h.switches
  rw [hlen] at h4
  have hready := mid_rashs hm3 h4
  obtain ⟨f3, e4, he3⟩ := rashs_step hm3.sympified (mid_acyclic hm3) h4
  have e5 : q1 = q := by
    have := h.time
    rw [hn] at this
    cases this; rfl
  subst e5
  have e6 := jac_fields h.jac
  have hreadyQ : Ready Q := ready_jac hready e6
  have hf31 : f3 1 = 1 := he3.fixes 1 (fun s hs => by simp [Expr.free] at hs)
  have hs3 : p3.states = p1.states ++ (if o.momentumShift then [⟨p1.ind, 1⟩] else []) ∧ p3.quads = p1.quads ∧
      p3.initial = p1.initial ∧ p3.terminal = p1.terminal ∧ p3.parameters = p1.parameters ∧ p3.constants = p1.constants ∧
      p3.constraintParams = p1.constraintParams ∧ p3.controls = p1.controls ∧ p3.switches = p1.switches := by
    obtain ⟨a, b, c, l, ch, rfl⟩ := r3
    rw [e2]
    exact ⟨rfl, rfl, rfl, rfl, rfl, rfl, rfl, rfl, rfl⟩
  obtain ⟨s1, s2, s3, s4, s5, s6, s7, s8, s9⟩ := hs3
  refine ⟨f3 ∘ f, ?_, ?_, ?_, ?_, ⟨?_, ?_, ?_, ?_⟩, hreadyQ.start.2.2, ?_, hreadyQ⟩
  · have h1 : q1.states = p3.states.map fun d => ⟨d.name, f3 d.eom⟩ := congrArg Prob.states e4
    rw [e6]
    change q1.states = _
    rw [h1, s1, List.map_append, hf.states, List.map_map, hf.ind]
    congr 1
    split <;> simp [hf31]
  · have h1 : q1.quads = p3.quads.map fun d => ⟨d.name, f3 d.eom⟩ := congrArg Prob.quads e4
    have h2 : p1.quads = p.quads.map fun d => ⟨d.name, f d.eom⟩ := congrArg Prob.quads hf.eqs
    rw [e6]
    change q1.quads = _
    rw [h1, s2, h2, List.map_map]
    rfl
  · have h1 : q1.initial = p3.initial.map (Con.rw f3) := congrArg Prob.initial e4
    rw [e6]
    change q1.initial = _
    rw [h1, s3, hf.initial, List.map_map]
    refine List.map_congr_left fun c _ => ?_
    simp [Con.rw]
  · have h1 : q1.terminal = p3.terminal.map (Con.rw f3) := congrArg Prob.terminal e4
    rw [e6]
    change q1.terminal = _
    rw [h1, s4, hf.terminal, List.map_map]
    refine List.map_congr_left fun c _ => ?_
    simp [Con.rw]
  · have h1 : q1.parameters = p3.parameters := by have := congrArg Prob.parameters e4; exact this
    have h2 : p1.parameters = p.parameters := by have := congrArg Prob.parameters hf.eqs; exact this
    rw [e6]
    change q1.parameters = _
    rw [h1, s5, h2]
  · have h1 : q1.constants = p3.constants := by have := congrArg Prob.constants e4; exact this
    rw [e6]
    change q1.constants = _
    rw [h1, s6, hf.constants]
  · have h1 : q1.constraintParams = p3.constraintParams := by have := congrArg Prob.constraintParams e4; exact this
    have h2 : p1.constraintParams = p.constraintParams := by have := congrArg Prob.constraintParams hf.eqs; exact this
    rw [e6]
    change q1.constraintParams = _
    rw [h1, s7, h2]
  · have h1 : q1.controls = p3.controls := by have := congrArg Prob.controls e4; exact this
    rw [e6]
    change q1.controls = _
    rw [h1, s8, hf.controls]
  · intro U σ hσ e
    have hq : Consistent (real U) (defsQ p.quantities) σ := by
      intro d hd
      obtain ⟨d0, h0, rfl⟩ := List.mem_map.1 hd
      exact hσ.quantities d0 h0
    have hsw : p1.switches = (p.switches.map Switch.sympify).map fun s => ⟨s.name, s.functions, s.conditions, s.tol, f s.symFunc⟩ :=
      congrArg Prob.switches hf.eqs
    have hs : Consistent (real U) (defsS p3.switches) σ := by
      intro d hd
      rw [s9, hsw] at hd
      simp only [defsS, List.map_map, List.mem_map] at hd
      obtain ⟨w, hw, rfl⟩ := hd
      simp only [Function.comp_apply, Switch.sympify]
      rw [hf.elim.meaning _ _ hq, eval_rashsFunc]
      exact hσ.switches w hw
    rw [Function.comp_apply, he3.meaning _ _ hs, hf.elim.meaning _ _ hq]

/-- A function all of whose arguments have the values of a point: either the values of the expressions, or `NameError`. -/
theorem lambdifyL_cases {K : Type} [Field K] (I : Interp K) (ρ : Name → K) (args : List (List Name)) (es : List Expr) :
    lambdifyL I args es (args.map fun ns => ns.map ρ) = .ok (es.map (eval I ρ)) ∨
    lambdifyL I args es (args.map fun ns => ns.map ρ) = .error .nameError ∧ ∃ e ∈ es, ∃ s ∈ e.free, s ∉ args.flatten := by
  induction es with
  | nil => exact .inl rfl
  | cons e es ih =>
    by_cases he : ∀ s ∈ e.free, s ∈ args.flatten
    · have h1 := lambdify_ok I ρ (e := e) (args := args) rfl he
      simp only [lambdifyL, List.mapM_cons] at ih ⊢
      rw [h1, ok_bind]
      rcases ih with ih | ⟨ih, e', h', hh⟩
      · rw [ih]; exact .inl rfl
      · rw [ih]; exact .inr ⟨rfl, e', List.mem_cons_of_mem _ h', hh⟩
    · push Not at he
      obtain ⟨s, hs, hn⟩ := he
      refine .inr ⟨?_, e, by simp, s, hs, hn⟩
      have h1 : lambdify I args e (args.map fun ns => ns.map ρ) = .error .nameError := by
        rw [lambdify, bindArgs_ok, ok_bind, if_neg]
        rw [List.all_eq_true]
        push Not
        refine ⟨s, hs, ?_⟩
        have : ((args.flatten).map fun s => (s, ρ s)).lookup s = none := by
          rw [List.lookup_eq_none_iff]
          intro x hx
          obtain ⟨y, hy, rfl⟩ := List.mem_map.1 hx
          simp only [bne_iff_ne, ne_eq]
          rintro rfl
          exact hn hy
        rw [this]
        exact Bool.false_ne_true
      rw [lambdifyL, List.mapM_cons, h1]
      rfl

section
variable {S : Sympy} {o : DirectOpts} {p Q : Prob}

/-- **C79, violated.**  Nothing that is compiled depends on the cost: whatever cost is stated instead, all functions that the solver
is given are the same. -/
theorem C79_violated_cost (h : direct S o p = .ok Q) (a b c : Expr) :
    ∃ Q', direct S o { p with costInitial := a, costPath := b, costTerminal := c } = .ok Q' ∧ Alike Q Q' := by
  obtain ⟨p1, p2, p3, q, q1, ineq, h⟩ := direct_path h
  obtain ⟨p1', e1, r1⟩ := preprocess_recosted ⟨a, b, c, rfl⟩ h.pre
  obtain ⟨p2', e2, r2⟩ := optional_rel (fun _ _ _ => shift_recosted) r1 h.shift
  obtain ⟨p3', e3, r3⟩ := ineq_recosted (ineq_mem h.ineqs) r2 h.regular
  have hsw := r1.quantities.2
  have h4 := h.switches
  have : ∃ q', runSteps S (if p1.switches.length > 0 then [.rashs] else []) p3' = .ok q' ∧ Recosted q q' := by
    by_cases hl : p1.switches.length > 0
    · rw [if_pos hl] at h4 ⊢
      exact optional_rel (b := true) (fun _ _ _ => rashs_recosted) r3 h4
    · rw [if_neg hl] at h4 ⊢
      cases h4
      exact ⟨p3', rfl, r3⟩
  obtain ⟨q', e4, r4⟩ := this
  obtain ⟨q1', e5, r5⟩ := optional_rel (fun _ _ _ => time_recosted) r4 h.time
  obtain ⟨Q', e6, r6⟩ := optional_rel (fun _ _ _ => jacobians_recosted) r5 h.jac
  refine ⟨Q', path_direct ⟨e1, e2, ?_, e3, by rw [hsw]; exact e4, e5, e6⟩, r6.repathed.alike⟩
  have hi := h.ineqs
  obtain ⟨x, y, z, rfl⟩ := r1
  exact hi

/-- **C79, violated.**  Path constraints have no effect either: without them the same functions are compiled.  (Two-sided constraints
with the method 'utm' only add to the cost; one-sided constraints are ignored.) -/
theorem C79_violated_constraints (ha : Acyclic (defsQ p.quantities)) (hp : Penalised p) (h : direct S o p = .ok Q) :
    ∃ Q', direct S o { p with path := [] } = .ok Q' ∧ Alike Q Q' := by
  obtain ⟨p1, p2, p3, q, q1, ineq, h⟩ := direct_path h
  obtain ⟨f, hf⟩ := preprocess_ok ha h.pre
  have hp1 := hp.pre hf
  obtain ⟨p1', e1, r1⟩ := preprocess_repathed (q := { p with path := [] }) ⟨_, _, _, _, _, rfl⟩ h.pre
  obtain ⟨p2', e2, r2⟩ := optional_rel (fun _ _ _ => shift_repathed) r1 h.shift
  have r3' : Repathed p2 p3 := by
    refine utms_repathed (hp1.steps h.ineqs) ?_ h.regular
    rw [shift_ends h.shift]
    exact hp1.ends
  have r3 : Repathed p3 p2' := r3'.symm.trans r2
  have hsw := r1.quantities.2
  have h4 := h.switches
  have : ∃ q', runSteps S (if p1.switches.length > 0 then [.rashs] else []) p2' = .ok q' ∧ Repathed q q' := by
    by_cases hl : p1.switches.length > 0
    · rw [if_pos hl] at h4 ⊢
      exact optional_rel (b := true) (fun _ _ _ => rashs_repathed) r3 h4
    · rw [if_neg hl] at h4 ⊢
      cases h4
      exact ⟨p2', rfl, r3⟩
  obtain ⟨q', e4, r4⟩ := this
  obtain ⟨q1', e5, r5⟩ := optional_rel (fun _ _ _ => time_repathed) r4 h.time
  obtain ⟨Q', e6, r6⟩ := optional_rel (fun _ _ _ => jacobians_repathed) r5 h.jac
  refine ⟨Q', path_direct (ineq := []) ⟨e1, e2, ?_, rfl, by rw [hsw]; exact e4, e5, e6⟩, r6.alike⟩
  have hf' := preprocess_ok (p := { p with path := [] }) ha e1
  obtain ⟨g, hg⟩ := hf'
  have hnil : p1'.path = [] := by rw [hg.path]; rfl
  obtain ⟨b1, b2⟩ := r1.bounds
  rw [hnil, b1, b2, List.append_nil, ineqSteps]
  have : (p1.initial ++ p1.terminal).filter Con.twoSided = [] := by
    rw [List.filter_eq_nil_iff]
    intro c hc
    rw [hp1.ends c hc]
    exact Bool.false_ne_true
  rw [this]
  rfl

/-- **C79, violated.**  With the default options a problem without parameters cannot be compiled. -/
theorem C79_violated_default (hp : WellScoped { momentumShift := o.momentumShift } p) (hc : Penalised p)
    (hj : o.analyticalJacobian = true) (hn : o.normalizeTime = false) (hpar : p.parameters = []) (h : direct S o p = .ok Q)
    (K : Type) [Field K] [LinearOrder K] (I : Interp K) : derivJac I Q = .error .typeError := by
  obtain ⟨g, hg⟩ := shape hp hc hn h
  obtain ⟨p1, p2, p3, q, q1, ineq, h⟩ := direct_path h
  have hJ := h.jac
  rw [hj, if_pos rfl, runSteps_cons] at hJ
  obtain ⟨r, hr, hJ⟩ := bind_ok hJ
  cases hJ
  have hQ := (jacobians_fields hr).2.2.2.2.2
  have hq : q1.parameters = [] := by
    have := hg.args.1
    rw [hpar, hQ] at this
    exact this
  obtain ⟨n1, -, -, e1, -⟩ := jacobians_fields hr
  have hd : Q.dfdp = [] := by
    have hr : analyticalJacobians q1 = .ok Q := hr
    rw [analyticalJacobians] at hr
    dsimp only at hr
    obtain ⟨_, -, hr⟩ := bind_ok hr
    obtain ⟨_, -, hr⟩ := bind_ok hr
    obtain ⟨_, -, hr⟩ := bind_ok hr
    by_cases hpos : (q1.parameters ++ q1.constraintParams).length > 0
    · rw [if_pos hpos] at hr
      obtain ⟨d, h4, hr⟩ := bind_ok hr
      obtain ⟨-, hne, -⟩ := Sym.jacobian_ok h4
      exact absurd hq hne
    · rw [if_neg hpos] at hr
      by_cases hqd : q1.quads.length > 0
      · simp only [pure_bind, if_pos hqd] at hr
        obtain ⟨_, -, hr⟩ := bind_ok hr
        obtain ⟨_, -, hr⟩ := bind_ok hr
        cases hr; rfl
      · simp only [pure_bind, if_neg hqd] at hr
        cases hr; rfl
  rw [derivJac, if_neg, if_pos hd]
  rw [e1]
  simpa using n1

/-- **C79, partial.**  Where the compiled functions have values at all, the values are those of the stated rates and boundary
conditions (time, if it is made a state, has rate one); otherwise they raise `NameError`, and then some control is involved.
Missing: the cost, the path constraints (see `C79_violated_cost` and `C79_violated_constraints`), normalised time. -/
theorem C79_partial (hp : WellScoped { momentumShift := o.momentumShift } p) (hc : Penalised p) (hn : o.normalizeTime = false)
    (h : direct S o p = .ok Q) (U : Name → Nat → ℝ → ℝ) (σ : Env) (hσ : Valued U p σ) :
    rates U Q σ = .ok (p.states.map (fun d => eval (real U) σ d.eom) ++ (if o.momentumShift then [1] else [])) ∨
    rates U Q σ = .error .nameError ∧ p.controls ≠ [] := by
  obtain ⟨g, hg⟩ := shape hp hc hn h
  have hr : rates U Q σ = lambdifyL (real U) [sts Q, Q.parameters, Q.constants] (Q.states.map Dyn.eom)
      ([sts Q, Q.parameters, Q.constants].map fun ns => ns.map σ) := by
    rw [rates, derivFunc, atPoint, computeU, hg.law]
    rfl
  rw [hr]
  rcases lambdifyL_cases (real U) σ [sts Q, Q.parameters, Q.constants] (Q.states.map Dyn.eom) with h1 | ⟨h1, e, he, s, hs, hns⟩
  · left
    rw [h1, hg.states]
    congr 1
    simp only [List.map_append, List.map_map]
    congr 1
    · exact List.map_congr_left fun d _ => hg.meaning U σ hσ _
    · split <;> simp
  · right
    refine ⟨h1, fun h0 => hns ?_⟩
    have := hg.ready.path e ?_ s hs
    · rw [hg.args.2.2.2, h0] at this
      simpa [fixedNames] using this
    · obtain ⟨d, hd, rfl⟩ := List.mem_map.1 he
      exact List.mem_append_left _ (List.mem_append_left _ (List.mem_append_left _ (List.mem_map_of_mem hd)))

/-- **C79, violated.**  The compiled functions know no controls: if the stated rates depend on anything but the states, parameters
and constants, `NameError` is raised at every point. -/
theorem C79_violated_controls (hp : WellScoped { momentumShift := o.momentumShift } p) (hc : Penalised p) (hn : o.normalizeTime = false)
    (h : direct S o p = .ok Q) (U : Name → Nat → ℝ → ℝ) {σ σ' : Env} (hσ : Valued U p σ) (hσ' : Valued U p σ')
    (hs : ∀ s ∈ known { momentumShift := o.momentumShift } p, σ' s = σ s)
    (hd : ∃ d ∈ p.states, eval (real U) σ' d.eom ≠ eval (real U) σ d.eom) : rates U Q σ = .error .nameError := by
  rcases C79_partial hp hc hn h U σ hσ with h1 | h1
  · exfalso
    have he : rates U Q σ' = rates U Q σ := by
      obtain ⟨g, hg⟩ := shape hp hc hn h
      have hk : ∀ l : List Name, (∀ s ∈ l, s ∈ known { momentumShift := o.momentumShift } p) → l.map σ' = l.map σ :=
        fun l hl => List.map_congr_left fun s h => hs s (hl s h)
      rw [rates, rates, hk (sts Q) ?_, hk Q.parameters ?_, hk Q.constants ?_]
      · intro s h; rw [hg.args.2.1] at h; simp [known, h]
      · intro s h; rw [hg.args.1] at h; simp [known, h]
      · intro s h
        rw [sts, hg.states] at h
        simp only [known, sts, List.mem_append]
        simp only [List.map_append, List.map_map, List.mem_append] at h
        rcases h with h | h
        · exact .inl (.inl (.inl h))
        · right
          cases hb : o.momentumShift with
          | true => rw [hb] at h; simpa using h
          | false => rw [hb] at h; simp at h
    rcases C79_partial hp hc hn h U σ' hσ' with h2 | h2
    · rw [he, h1] at h2
      obtain ⟨d, hd, hne⟩ := hd
      have h3 := List.append_cancel_right (Except.ok.inj h2)
      exact hne (List.map_inj_left.1 h3 d hd).symm
    · rw [he, h1] at h2
      cases h2.1
  · exact h1.1

/-- **C79, partial.**  The same for the boundary conditions. -/
theorem C79_ends_partial (hp : WellScoped { momentumShift := o.momentumShift } p) (hc : Penalised p) (hn : o.normalizeTime = false)
    (h : direct S o p = .ok Q) (U : Name → Nat → ℝ → ℝ) (σ₀ σ₁ : Env) (h₀ : Valued U p σ₀) (h₁ : Valued U p σ₁)
    (hs : ∀ s ∈ p.parameters ++ p.constraintParams ++ p.constants, σ₁ s = σ₀ s) :
    ends U Q σ₀ σ₁ = .ok (p.initial.map (fun c => eval (real U) σ₀ c.expr) ++ p.terminal.map (fun c => eval (real U) σ₁ c.expr)) ∨
    ends U Q σ₀ σ₁ = .error .nameError ∧ p.controls ≠ [] := by
  obtain ⟨g, hg⟩ := shape hp hc hn h
  set args : List (List Name) := [sts Q] ++ (if Q.quads.length > 0 then [qds Q] else []) ++
    [Q.parameters, Q.constraintParams, Q.constants] with ha
  have hk : ∀ l : List Name, (∀ s ∈ l, s ∈ p.parameters ++ p.constraintParams ++ p.constants) → l.map σ₀ = l.map σ₁ :=
    fun l hl => List.map_congr_left fun s h => (hs s (hl s h)).symm
  have key : ∀ σ cs, bcEnd (real U) Q cs ((sts Q).map σ) ((qds Q).map σ) (Q.parameters.map σ) (Q.constraintParams.map σ) (Q.constants.map σ) =
      lambdifyL (real U) args (cs.map Con.expr) (args.map fun ns => ns.map σ) := by
    intro σ cs
    rw [bcEnd, computeU, hg.law, ha]
    by_cases hq : Q.quads.length > 0
    · simp only [if_pos hq]; rfl
    · simp only [if_neg hq]; rfl
  have he : ends U Q σ₀ σ₁ = (do
      let a ← lambdifyL (real U) args (Q.initial.map Con.expr) (args.map fun ns => ns.map σ₀)
      let b ← lambdifyL (real U) args (Q.terminal.map Con.expr) (args.map fun ns => ns.map σ₁)
      .ok (a ++ b)) := by
    rw [ends, bcFunc, key σ₀, ← key σ₁, hk Q.parameters, hk Q.constraintParams, hk Q.constants]
    · intro s h; rw [hg.args.2.1] at h; simp [h]
    · intro s h; rw [hg.args.2.2.1] at h; simp [h]
    · intro s h; rw [hg.args.1] at h; simp [h]
  have hnames : ∀ cs : List Con, (∀ c ∈ cs, c ∈ Q.initial ++ Q.terminal) → (∃ e ∈ cs.map Con.expr, ∃ s ∈ e.free, s ∉ args.flatten) → p.controls ≠ [] := by
    rintro cs hcs ⟨e, he, s, hs, hns⟩ h0
    obtain ⟨c, hc, rfl⟩ := List.mem_map.1 he
    have := hg.ready.ends c.expr (mem_endExprs (hcs c hc) (by simp [parts])) s hs
    rw [hg.args.2.2.2, h0] at this
    refine hns ?_
    by_cases hq : Q.quads.length > 0
    · rw [ha, if_pos hq]
      simp only [fixedNames, List.mem_append, List.not_mem_nil, or_false] at this
      simp only [List.flatten_append, List.flatten_cons, List.flatten_nil, List.mem_append, List.not_mem_nil, or_false]
      tauto
    · have hz : qds Q = [] := by
        rw [qds]
        have : Q.quads = [] := by simpa using hq
        rw [this]; rfl
      rw [hz] at this
      rw [ha, if_neg hq]
      simp only [fixedNames, List.mem_append, List.not_mem_nil, or_false] at this
      simp only [List.flatten_append, List.flatten_cons, List.flatten_nil, List.mem_append, List.not_mem_nil, or_false]
      tauto
  rw [he]
  rcases lambdifyL_cases (real U) σ₀ args (Q.initial.map Con.expr) with h1 | ⟨h1, hx⟩
  · rcases lambdifyL_cases (real U) σ₁ args (Q.terminal.map Con.expr) with h2 | ⟨h2, hx⟩
    · left
      rw [h1, h2, ok_bind, ok_bind, hg.initial, hg.terminal]
      simp only [List.map_map]
      congr 2
      · exact List.map_congr_left fun c _ => hg.meaning U σ₀ h₀ _
      · exact List.map_congr_left fun c _ => hg.meaning U σ₁ h₁ _
    · right
      rw [h1, h2, ok_bind]
      exact ⟨rfl, hnames Q.terminal (fun c h => List.mem_append_right _ h) hx⟩
  · right
    rw [h1]
    exact ⟨rfl, hnames Q.initial (fun c h => List.mem_append_left _ h) hx⟩

end

/-! ### Cases -/

/-- No control: `x' = -k x` with a quantity for the right side. -/
def exF : Prob := {
  ind := "t"
  states := [⟨"x", -(sym "r")⟩]
  constants := ["k"]
  quantities := [⟨"r", sym "k" * sym "x", []⟩]
  initial := [{ expr := sym "x" - 1 }, { expr := sym "t" }]
  terminal := [{ expr := sym "t" - 1 }]
  costPath := sym "x" }

/-- The same with a bounded control. -/
def exC : Prob := { exF with
  states := [⟨"x", sym "u" - sym "r"⟩]
  controls := ["u"]
  constants := ["k", "eps"]
  path := [{ expr := sym "u", lower := some (-1), upper := some 1, activator := some (sym "eps"), method := .utm }] }

def exO : DirectOpts := { momentumShift := true, analyticalJacobian := false }

theorem exF_wellScoped : WellScoped { momentumShift := true } exF where
  start := ⟨rfl, rfl, rfl⟩
  acyclic := ⟨fun _ => 0, by decide⟩
  path := by unfold Uses; decide
  ends := by unfold Uses; decide
  costs := by
    intro e he s hs
    refine .base ?_
    revert e s
    decide
  quantities := by unfold Uses; decide
  switches := by simp [exF]
  bounds := by simp [exF]
  activators := by simp [exF]
  names := by decide
  trig := trig_underscore (by decide)

theorem exC_wellScoped : WellScoped { momentumShift := true } exC where
  start := ⟨rfl, rfl, rfl⟩
  acyclic := ⟨fun _ => 0, by decide⟩
  path := by unfold Uses; decide
  ends := by unfold Uses; decide
  costs := by
    intro e he s hs
    refine .base ?_
    revert e s
    decide
  quantities := by unfold Uses; decide
  switches := by simp [exC, exF]
  bounds := by simp [exC, exF]
  activators := by simp [exC, exF]
  names := by decide
  trig := trig_underscore (by decide)

theorem exF_penalised : Penalised exF := ⟨by decide, by decide⟩
theorem exC_penalised : Penalised exC := ⟨by decide, by decide⟩

theorem exF_ok : ∃ Q, direct exT exO exF = .ok Q := E2E.ok_of (by decide +kernel)
theorem exC_ok : ∃ Q, direct exT exO exC = .ok Q := E2E.ok_of (by decide +kernel)
theorem exC_default : ∃ Q, direct exT { momentumShift := true } exC = .ok Q := E2E.ok_of (by decide +kernel)

/-- Without controls the compiled rates are the stated ones: `x' = -k x`, and time runs. -/
example (U : Name → Nat → ℝ → ℝ) (x k t : ℝ) : ∃ Q, direct exT exO exF = .ok Q ∧
    derivFunc (real U) Q [x, t] [] [k] = .ok [-(k * x), 1] := by
  obtain ⟨Q, hQ⟩ := exF_ok
  refine ⟨Q, hQ, ?_⟩
  let σ : Env := fun s => if s = "x" then x else if s = "t" then t else if s = "k" then k else if s = "r" then k * x else 0
  have hσ : Valued U exF σ := ⟨by simp [exF, σ, eval], by simp [exF]⟩
  have h := (C79_partial (o := exO) exF_wellScoped exF_penalised rfl hQ U σ hσ).resolve_right (fun h => h.2 rfl)
  obtain ⟨g, hg⟩ := shape (o := exO) exF_wellScoped exF_penalised rfl hQ
  rw [rates, sts, hg.states, hg.args.1, hg.args.2.1] at h
  simpa [exO, exF, σ, eval] using h

/-- With a control nothing can be evaluated. -/
example (U : Name → Nat → ℝ → ℝ) : ∃ Q, direct exT exO exC = .ok Q ∧
    rates U Q (fun _ => 0) = .error .nameError := by
  obtain ⟨Q, hQ⟩ := exC_ok
  refine ⟨Q, hQ, C79_violated_controls (o := exO) exC_wellScoped exC_penalised rfl hQ U (σ' := fun s => if s = "u" then 1 else 0)
    ⟨by simp [exC, exF, eval], by simp [exC, exF]⟩ ⟨by simp [exC, exF, eval], by simp [exC, exF]⟩ (by simp [known, exC, exF, exO, sts]) ⟨_, List.mem_cons_self .., ?_⟩⟩
  simp [eval]

example (I : Interp ℚ) : ∃ Q, direct exT { momentumShift := true } exC = .ok Q ∧ derivJac I Q = .error .typeError := by
  obtain ⟨Q, hQ⟩ := exC_default
  exact ⟨Q, hQ, C79_violated_default (o := { momentumShift := true }) exC_wellScoped exC_penalised rfl rfl rfl hQ ℚ I⟩

/-- Minimising and maximising are compiled to the same. -/
example : ∃ Q Q', direct exT exO exC = .ok Q ∧
    direct exT exO { exC with costInitial := 0, costPath := -(sym "x"), costTerminal := 0 } = .ok Q' ∧ Alike Q Q' := by
  obtain ⟨Q, hQ⟩ := exC_ok
  obtain ⟨Q', h⟩ := C79_violated_cost hQ 0 (-(sym "x")) 0
  exact ⟨Q, Q', hQ, h⟩

example : ∃ Q Q', direct exT exO exC = .ok Q ∧ direct exT exO { exC with path := [] } = .ok Q' ∧ Alike Q Q' := by
  obtain ⟨Q, hQ⟩ := exC_ok
  obtain ⟨Q', h⟩ := C79_violated_constraints exC_wellScoped.acyclic exC_penalised hQ
  exact ⟨Q, Q', hQ, h⟩

end Beluga.Direct
