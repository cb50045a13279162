import Verif.Symbolic.Props5
import Verif.Symbolic.Regularise

/-! # The boundary value problem is square (C28); time normalisation (C32) -/

namespace Beluga.Sym

open Expr

/-! ### Specification -/

/-- The boundary conditions. -/
def Prob.conditions (p : Prob) : Nat := p.initial.length + p.terminal.length

/-- What the solver of the boundary value problem has to find: the initial values of states and quadratures, the
parameters and the multipliers. -/
def Prob.unknowns (p : Prob) : Nat :=
  p.states.length + p.quads.length + p.parameters.length + p.constraintParams.length

/-- A problem as the user states it: no dual variables yet. -/
structure Primal (p : Prob) : Prop where
  costates : p.costates = []
  coparameters : p.coparameters = []
  adjoints : p.adjoints = []

/-! ### Lemmas -/

/-- `p'` has as many quadratures and constraint parameters as `p`, and is still primal. -/
structure PreStep (p p' : Prob) : Prop where
  primal : Primal p → Primal p'
  quads : p'.quads.length = p.quads.length
  cps : p'.constraintParams.length = p.constraintParams.length

theorem PreStep.refl (p : Prob) : PreStep p p := ⟨id, rfl, rfl⟩

theorem PreStep.trans {p q r : Prob} (h1 : PreStep p q) (h2 : PreStep q r) : PreStep p r :=
  ⟨fun h => h2.primal (h1.primal h), h2.quads.trans h1.quads, h2.cps.trans h1.cps⟩

theorem PreStep.subsAll (x : Name) (e : Expr) (p : Prob) : PreStep p (p.subsAll x e) := by
  refine ⟨fun h => ⟨?_, ?_, ?_⟩, ?_, rfl⟩
  · simp [Prob.subsAll, h.costates]
  · simp [Prob.subsAll, h.coparameters]
  · simp [Prob.subsAll, h.adjoints]
  · simp [Prob.subsAll]

theorem PreStep.elimLoop (p : Prob) : ∀ k, PreStep p (elimLoop p k)
  | 0 => .refl p
  | k + 1 => by
    rw [Sym.elimLoop]
    split
    · exact (PreStep.elimLoop p k).trans (.subsAll _ _ _)
    · exact PreStep.elimLoop p k

theorem PreStep.rashsLoop (p : Prob) : ∀ k, PreStep p (rashsLoop p k)
  | 0 => .refl p
  | k + 1 => by
    rw [Sym.rashsLoop]
    split
    · exact (PreStep.rashsLoop p k).trans (.subsAll _ _ _)
    · exact PreStep.rashsLoop p k

theorem PreStep.preprocess {p p' : Prob} (h : preprocess p = .ok p') : PreStep p p' := by
  rw [Sym.preprocess] at h
  simp only [bind, Except.bind, Prob.sympify] at h
  split at h
  · cases h
  · next q hq =>
    split at hq
    · cases hq
    · cases hq
      rw [applyQuantities] at h
      split at h
      · cases h
      · cases h
        exact PreStep.trans (q := { p with sympified := true, quantities := mergeRows (p.quantities.map Quantity.sympify).length (p.quantities.map Quantity.sympify) (p.quantities.map Quantity.sympify).length, switches := p.switches.map Switch.sympify })
          ⟨fun h => ⟨h.costates, h.coparameters, h.adjoints⟩, rfl, rfl⟩ (.elimLoop _ _)

theorem PreStep.run {S : Sympy} {s : Step} {p p' : Prob} (hs : s ∈ [Step.momentumShift, .epsTrig, .utm, .rashs])
    (h : s.run S p = .ok p') : PreStep p p' := by
  simp only [List.mem_cons, List.not_mem_nil, or_false] at hs
  rcases hs with rfl | rfl | rfl | rfl
  · simp only [Step.run, Sym.momentumShift] at h
    split at h
    · cases h
    · cases h
      exact ⟨fun h => ⟨h.costates, h.coparameters, h.adjoints⟩, rfl, rfl⟩
  · simp only [Step.run, Sym.epsTrig] at h
    split at h
    · cases h
    · split at h
      · cases h
      · split at h
        · cases h
        · split at h
          · cases h
          · split at h
            · cases h
              refine ⟨fun h => ⟨?_, ?_, ?_⟩, ?_, ?_⟩
              · simp [Prob.subsAll, h.costates]
              · simp [Prob.subsAll, h.coparameters]
              · simp [Prob.subsAll, h.adjoints]
              · simp [Prob.subsAll]
              · simp [Prob.subsAll]
            · cases h
  · simp only [Step.run, Sym.utm] at h
    split at h
    · cases h
    · split at h
      · cases h
      · split at h
        · cases h
        · split at h
          · split at h
            · cases h
              exact ⟨fun h => ⟨h.costates, h.coparameters, h.adjoints⟩, rfl, rfl⟩
            · cases h
          · cases h
  · simp only [Step.run, Sym.rashs] at h
    split at h
    · cases h
    · cases h
      exact .rashsLoop _ _

theorem runSteps_nil (S : Sympy) (p : Prob) : runSteps S [] p = .ok p := rfl

theorem runSteps_cons (S : Sympy) (s : Step) (ss : List Step) (p : Prob) :
    runSteps S (s :: ss) p = (s.run S p >>= fun p => runSteps S ss p) := rfl

theorem runSteps_append (S : Sympy) (a b : List Step) (p : Prob) :
    runSteps S (a ++ b) p = (runSteps S a p >>= fun p => runSteps S b p) := by
  simp [runSteps, List.foldlM_append]

theorem bind_ok {α β : Type _} {x : Py α} {f : α → Py β} {b : β} (h : (x >>= f) = .ok b) : ∃ a, x = .ok a ∧ f a = .ok b := by
  cases x with
  | error e => cases h
  | ok a => exact ⟨a, rfl, h⟩

theorem PreStep.runSteps {S : Sympy} : ∀ {ss : List Step} {p p' : Prob},
    (∀ s ∈ ss, s ∈ [Step.momentumShift, .epsTrig, .utm, .rashs]) → Sym.runSteps S ss p = .ok p' → PreStep p p'
  | [], p, p', _, h => by cases h; exact .refl p
  | s :: ss, p, p', hs, h => by
    rw [runSteps_cons] at h
    obtain ⟨q, h1, h2⟩ := bind_ok h
    exact (PreStep.run (hs s (by simp)) h1).trans (PreStep.runSteps (fun s hs' => hs s (by simp [hs'])) h2)

/-- The boundary conditions minus the dual and primal unknowns. -/
def Prob.balance (p : Prob) : ℤ := (p.initial.length + p.terminal.length : ℤ) -
  (p.states.length + p.costates.length + p.coparameters.length + p.parameters.length + p.adjoints.length)

theorem transversality_length (cost : Expr) (sign : Expr → Expr → Expr) (syms : List Name) (lams : List Dyn)
    (h : syms.length = lams.length) : (transversality cost sign syms lams).length = syms.length := by
  simp [transversality, h]

theorem balance_traditional {S : Sympy} {p p' : Prob} (hp : Primal p) (h : dualize S .traditional p = .ok p') :
    p'.balance = 1 ∧ p'.quads.length = p.quads.length ∧ p'.constraintParams.length = p.constraintParams.length := by
  by_cases hs : p.sympified = true
  · rw [dualize_traditional S p hs hp.costates hp.coparameters] at h
    simp only [Except.ok.injEq] at h
    subst h
    refine ⟨?_, rfl, rfl⟩
    simp only [Prob.balance, List.length_append, List.length_cons, List.length_nil, nuNames, List.length_map,
      List.length_range, hp.adjoints]
    push_cast
    ring
  · rw [dualize, if_pos (by simpa using hs)] at h
    cases h

theorem balance_dualize {S : Sympy} {m : Method} {p p' : Prob} (hp : Primal p) (h : dualize S m p = .ok p') :
    p'.balance = 1 ∧ p'.quads.length = p.quads.length ∧ p'.constraintParams.length = p.constraintParams.length := by
  by_cases hs : p.sympified = true
  · cases m with
    | traditional => exact balance_traditional hp h
    | diffyg =>
      obtain ⟨chi, stars, -, q, hq, rfl⟩ := dualize_diffyg hs hp.costates hp.coparameters h
      have hb := balance_traditional hp hq
      rw [dualize_traditional S p hs hp.costates hp.coparameters] at hq
      simp only [Except.ok.injEq] at hq
      have h1 : q.costates.length = p.states.length := by rw [← hq]; simp
      have h2 : q.coparameters.length = p.parameters.length := by rw [← hq]; simp
      refine ⟨?_, hb.2⟩
      rw [← hb.1]
      simp only [Prob.balance, setEoms_length, List.length_map, h1, h2]
    | other =>
      rw [dualize, if_neg (by simp [hs])] at h
      simp only [hp.costates, hp.coparameters, hp.adjoints, List.nil_append, bind, Except.bind, Except.ok.injEq] at h
      subst h
      refine ⟨?_, rfl, rfl⟩
      simp only [Prob.balance, List.length_append, List.length_cons, List.length_nil, nuNames, List.length_map,
        List.length_range]
      rw [transversality_length _ _ _ _ (by simp), transversality_length _ _ _ _ (by simp)]
      simp only [List.length_append, List.length_map]
      push_cast
      ring
  · rw [dualize, if_pos (by simpa using hs)] at h
    cases h

theorem balance_control {S : Sympy} (hS : LuSound S) {o : Opts} {s : Step} {p p' : Prob}
    (hs : s = .algebraic ∨ s = .differential o.method) (h : s.run S p = .ok p') :
    p'.balance = p.balance ∧ p'.quads.length = p.quads.length ∧ p'.constraintParams.length = p.constraintParams.length := by
  rcases hs with rfl | rfl
  · simp only [Step.run, algebraicControl] at h
    split at h
    · cases h
    · split at h
      · cases h
      · obtain ⟨law, -, h⟩ := bind_ok h
        cases h
        exact ⟨rfl, rfl, rfl⟩
  · simp only [Step.run] at h
    cases hm : o.method with
    | traditional =>
      rw [hm] at h
      obtain ⟨-, -, H, udot, -, hlu, rfl⟩ := differential_traditional h
      have hl := (udot_solves hS hlu).1
      refine ⟨?_, rfl, rfl⟩
      simp only [Prob.balance, List.length_append, List.length_map, gOf, ctlStates, List.length_zip, hl]
      push_cast
      simp only [min_self]
      ring
    | diffyg =>
      rw [hm] at h
      obtain ⟨-, -, H, udot, chi, -, hlu, hlen, -, rfl⟩ := differential_diffyg h
      have hl := (udot_solves hS hlu).1
      refine ⟨?_, rfl, rfl⟩
      simp only [List.length_append, List.length_map, ctlStates, List.length_zip, hl, min_self] at hlen
      simp only [Prob.balance, List.length_append, List.length_map, gOf, ctlStates, List.length_zip, hl, min_self,
        List.length_take, List.length_drop, setEoms_length]
      push_cast
      omega
    | other =>
      rw [hm] at h
      exfalso
      rw [differentialControl] at h
      split at h
      · cases h
      · split at h
        · cases h
        · obtain ⟨_, -, h⟩ := bind_ok h
          obtain ⟨_, -, h⟩ := bind_ok h
          obtain ⟨_, -, h⟩ := bind_ok h
          cases h

theorem ineqSteps_mem : ∀ {cons : List Con} {ss : List Step}, ineqSteps cons = .ok ss →
    ∀ s ∈ ss, s = .epsTrig ∨ s = .utm := by
  intro cons ss h
  rw [ineqSteps] at h
  generalize cons.filter Con.twoSided = l at h
  induction l generalizing ss with
  | nil => cases h; simp
  | cons c l ih =>
    rw [List.mapM_cons] at h
    obtain ⟨s, h1, h⟩ := bind_ok h
    obtain ⟨ss', h2, h⟩ := bind_ok h
    cases h
    intro x hx
    simp only [List.mem_cons] at hx
    rcases hx with rfl | hx
    · cases hm : c.method with
      | utm => rw [hm] at h1; cases h1; exact Or.inr rfl
      | epstrig => rw [hm] at h1; cases h1; exact Or.inl rfl
      | other => rw [hm] at h1; cases h1
    · exact ih h2 x hx

theorem indirectSteps_ok {o : Opts} {p : Prob} {steps : List Step} (h : indirectSteps o p = .ok steps) :
    ∃ ineq ctl, ineqSteps (p.initial ++ p.path ++ p.terminal) = .ok ineq ∧
      (ctl = .algebraic ∧ o.controlMethod = .algebraic ∨ ctl = .differential o.method ∧ o.controlMethod = .differential) ∧
      steps = (if o.momentumShift then [.momentumShift] else []) ++ ineq ++
        (if p.switches.length > 0 then [.rashs] else []) ++ [.dualize o.method, ctl] ++
        (if o.normalizeTime then [.normalizeTime] else []) ++ [.squash] ++
        (if o.analyticalJacobian && o.controlMethod ≠ .algebraic then [.jacobians] else []) := by
  rw [indirectSteps] at h
  obtain ⟨ineq, hineq, h⟩ := bind_ok h
  cases hc : o.controlMethod with
  | algebraic =>
    rw [hc] at h
    cases h
    exact ⟨ineq, _, hineq, Or.inl ⟨rfl, rfl⟩, rfl⟩
  | differential =>
    rw [hc] at h
    cases h
    exact ⟨ineq, _, hineq, Or.inr ⟨rfl, rfl⟩, rfl⟩
  | other =>
    rw [hc] at h
    cases h

theorem jacobians_ok {p q : Prob} (h : analyticalJacobians p = .ok q) :
    ∃ dfdy dfdp, q = { p with dfdy := dfdy, dfdp := dfdp } := by
  rw [analyticalJacobians] at h
  obtain ⟨dfdy, -, h⟩ := bind_ok h
  obtain ⟨_, -, h⟩ := bind_ok h
  obtain ⟨_, -, h⟩ := bind_ok h
  refine ⟨dfdy, ?_⟩
  split at h
  · dsimp only at h
    split at h
    · obtain ⟨_, -, h⟩ := bind_ok h
      obtain ⟨_, -, h⟩ := bind_ok h
      obtain ⟨_, -, h⟩ := bind_ok h
      obtain ⟨dfdp, -, h⟩ := bind_ok h
      obtain ⟨_, -, h⟩ := bind_ok h
      obtain ⟨_, -, h⟩ := bind_ok h
      cases h; exact ⟨dfdp, rfl⟩
    · obtain ⟨dfdp, -, h⟩ := bind_ok h
      obtain ⟨_, -, h⟩ := bind_ok h
      obtain ⟨_, -, h⟩ := bind_ok h
      cases h; exact ⟨dfdp, rfl⟩
  · dsimp only at h
    split at h
    · obtain ⟨_, -, h⟩ := bind_ok h
      obtain ⟨_, -, h⟩ := bind_ok h
      obtain ⟨_, -, h⟩ := bind_ok h
      obtain ⟨dfdp, -, h⟩ := bind_ok h
      cases h; exact ⟨dfdp, rfl⟩
    · obtain ⟨dfdp, -, h⟩ := bind_ok h
      cases h; exact ⟨dfdp, rfl⟩

/-! ### C28 -/

/-- Exact count of boundary conditions against unknowns, for every primal problem and all options of the indirect
method (without reduction). -/
theorem C28_count {S : Sympy} (hS : LuSound S) {o : Opts} {p q : Prob} (hp : Primal p) (h : indirect S o p = .ok q) :
    q.conditions + p.quads.length + p.constraintParams.length = q.unknowns + if o.normalizeTime then 0 else 1 := by
  rw [indirect] at h
  obtain ⟨p1, h1, h⟩ := bind_ok h
  obtain ⟨steps, h2, h⟩ := bind_ok h
  have k1 := PreStep.preprocess h1
  obtain ⟨ineq, ctl, hineq, hctl, rfl⟩ := indirectSteps_ok h2
  have hctl' : ctl = .algebraic ∨ ctl = .differential o.method := hctl.imp And.left And.left
  rw [runSteps_append, runSteps_append, runSteps_append, runSteps_append] at h
  obtain ⟨p5, h, hjac⟩ := bind_ok h
  obtain ⟨p4, h, hsq⟩ := bind_ok h
  obtain ⟨p3, h, hnorm⟩ := bind_ok h
  obtain ⟨p2, h, hdc⟩ := bind_ok h
  have k2 : PreStep p1 p2 := by
    refine PreStep.runSteps ?_ h
    intro s hs
    simp only [List.mem_append] at hs
    rcases hs with (hs | hs) | hs
    · split at hs
      · simp only [List.mem_singleton] at hs; simp [hs]
      · simp at hs
    · rcases ineqSteps_mem hineq s hs with rfl | rfl <;> simp
    · split at hs
      · simp only [List.mem_singleton] at hs; simp [hs]
      · simp at hs
  have k := k1.trans k2
  obtain ⟨pd, hd, hdc⟩ := bind_ok hdc
  obtain ⟨p3', hc, hdc⟩ := bind_ok hdc
  cases hdc
  obtain ⟨d1, d2, d3⟩ := balance_dualize (k.primal hp) hd
  obtain ⟨c1, c2, c3⟩ := balance_control hS hctl' hc
  have n1 : p4.balance = (if o.normalizeTime then 0 else 1) ∧ p4.quads.length = p.quads.length ∧
      p4.constraintParams.length = p.constraintParams.length := by
    have e : p3.balance = 1 := c1.trans d1
    have e2 := k.quads
    have e3 := k.cps
    split at hnorm
    · next hn =>
      rw [if_pos hn]
      obtain ⟨p4', hn, hnorm⟩ := bind_ok hnorm
      cases hnorm
      simp only [Step.run, Sym.normalizeTime] at hn
      split at hn
      · cases hn
      · cases hn
        refine ⟨?_, by simp only; omega, by simp only; omega⟩
        simp only [Prob.balance, List.length_append, List.length_map, List.length_cons, List.length_nil] at e ⊢
        push_cast at e ⊢
        omega
    · next hn =>
      rw [if_neg hn]
      cases hnorm
      exact ⟨e, by omega, by omega⟩
  obtain ⟨p5', hs, hsq⟩ := bind_ok hsq
  cases hsq
  have j1 : q.conditions = p5.conditions ∧ q.unknowns = p5.unknowns := by
    split at hjac
    · obtain ⟨q', hj, hjac⟩ := bind_ok hjac
      cases hjac
      obtain ⟨_, _, rfl⟩ := jacobians_ok (p := p5) hj
      exact ⟨rfl, rfl⟩
    · cases hjac
      exact ⟨rfl, rfl⟩
  rw [j1.1, j1.2]
  simp only [Step.run, Sym.squash, Except.ok.injEq] at hs
  subst hs
  obtain ⟨n1, n2, n3⟩ := n1
  simp only [Prob.balance] at n1
  simp only [Prob.conditions, Prob.unknowns, List.length_append]
  split at n1 <;> split <;> simp_all <;> omega

/-- With normalised time, and without quadratures or constraint parameters declared by the user, the problem handed to the
solver is square.  (Otherwise see `C28_violated`; `MishchenkoFomenko` is not part of these pipelines.) -/
theorem C28_square_partial {S : Sympy} (hS : LuSound S) {o : Opts} {p q : Prob} (hp : Primal p) (hq : p.quads = [])
    (hc : p.constraintParams = []) (hn : o.normalizeTime = true) (h : indirect S o p = .ok q) :
    q.conditions = q.unknowns := by
  have := C28_count hS hp h
  rw [hq, hc, if_pos hn] at this
  simpa using this

/-- With normalised time the problem is square only in that case: every user quadrature and every user constraint
parameter leaves one condition missing.  Without time normalisation there is one condition too many. -/
theorem C28_violated {S : Sympy} (hS : LuSound S) {o : Opts} {p q : Prob} (hp : Primal p) (h : indirect S o p = .ok q) :
    (o.normalizeTime = true → (p.quads ≠ [] ∨ p.constraintParams ≠ []) → q.conditions < q.unknowns) ∧
    (o.normalizeTime = false → p.quads = [] → p.constraintParams = [] → q.conditions = q.unknowns + 1) := by
  have := C28_count hS hp h
  constructor
  · intro hn hne
    rw [if_pos hn] at this
    rcases hne with hne | hne
    · have := List.length_pos_iff.2 hne
      omega
    · have := List.length_pos_iff.2 hne
      omega
  · intro hn hq hc
    rw [if_neg (by simp [hn]), hq, hc] at this
    simpa using this

/-- Minimum energy: `x' = u`, from 0 to 1, `u` bounded by a penalty with a declared constant, one free parameter. -/
def exS : Prob where
  ind := "t"
  states := [⟨"x", sym "u" * sym "a"⟩]
  parameters := ["a"]
  controls := ["u"]
  constants := ["eps"]
  costPath := sym "u" * sym "u"
  initial := [{ expr := sym "x" }]
  path := [{ expr := sym "u", lower := some (-1), upper := some 1, activator := some (sym "eps") }]
  terminal := [{ expr := sym "x" - 1 }, { expr := sym "t" - 1 }]

def counts (o : Opts) (p : Prob) : Py (Nat × Nat) := (indirect exSympy o p).map fun q => (q.conditions, q.unknowns)

example : counts {} exS = .ok (11, 11) := by decide +kernel

example : counts { method := .diffyg, momentumShift := false } { exS with parameters := [], states := [⟨"x", sym "u"⟩] } =
    .ok (8, 8) := by decide +kernel

/-- A quadrature of the user's. -/
example : counts {} { exS with quads := [⟨"q", sym "u"⟩] } = .ok (11, 12) := by decide +kernel

example : counts { normalizeTime := false } exS = .ok (11, 10) := by decide +kernel

/-! ### C32 -/

theorem normalizeTime_ok {p p' : Prob} (h : normalizeTime p = .ok p') : p' = { p with
    parameters := p.parameters ++ ["_delta" ++ p.ind]
    states := p.states.map fun s => { s with eom := s.eom * sym ("_delta" ++ p.ind) }
    costates := p.costates.map fun s => { s with eom := s.eom * sym ("_delta" ++ p.ind) }
    costPath := p.costPath * sym ("_delta" ++ p.ind)
    ind := "_tau"
    chain := p.chain ++ [.normalizeTime p.parameters.length] } := by
  rw [normalizeTime] at h
  split at h
  · cases h
  · cases h; rfl

/-- A curve over `[0, 1]` with a constant duration `T > 0` solves the state and costate equations of the normalised
problem if and only if the same curve run through in time `T` solves those of the original problem; the boundary
conditions are the same. -/
theorem C32_states_partial {p p' : Prob} (h : normalizeTime p = .ok p') (U : Name → Nat → ℝ → ℝ) {T : ℝ} (hT : 0 < T)
    (ρ : ℝ → Name → ℝ) (hdelta : ∀ τ ∈ Set.Icc (0 : ℝ) 1, ρ τ ("_delta" ++ p.ind) = T) :
    (Follows U (p'.states ++ p'.costates) 1 0 1 ρ ↔ Follows U (p.states ++ p.costates) 1 0 T fun t => ρ (t / T)) ∧
    p'.initial = p.initial ∧ p'.terminal = p.terminal ∧ p'.parameters = p.parameters ++ ["_delta" ++ p.ind] := by
  have hp := normalizeTime_ok h
  subst hp
  refine ⟨?_, rfl, rfl, rfl⟩
  have hsc : ∀ (s : Name) (v τ : ℝ), HasDerivAt (fun τ => ρ τ s) (T * v) τ ↔
      HasDerivAt (fun t => ρ (t / T) s) v (T * τ) := by
    intro s v τ
    constructor
    · intro hd
      have hin : HasDerivAt (fun t : ℝ => t / T) (1 / T) (T * τ) := (hasDerivAt_id' (T * τ)).div_const T
      have hd' : HasDerivAt (fun τ => ρ τ s) (T * v) (T * τ / T) := by
        rwa [mul_div_cancel_left₀ τ hT.ne']
      have := HasDerivAt.comp (T * τ) hd' hin
      refine this.congr_deriv ?_
      field_simp
    · intro hd
      have hin : HasDerivAt (fun τ : ℝ => T * τ) T τ := by
        simpa using (hasDerivAt_id' τ).const_mul T
      have := HasDerivAt.comp τ hd hin
      have e : ((fun t => ρ (t / T) s) ∘ fun τ => T * τ) = fun τ => ρ τ s := by
        funext τ
        simp only [Function.comp_apply]
        rw [mul_div_cancel_left₀ τ hT.ne']
      rw [e] at this
      refine this.congr_deriv ?_
      ring
  have hmem : ∀ d ∈ p.states ++ p.costates, (⟨d.name, d.eom * sym ("_delta" ++ p.ind)⟩ : Dyn) ∈
      (p.states.map fun s => ({ s with eom := s.eom * sym ("_delta" ++ p.ind) } : Dyn)) ++
        p.costates.map fun s => ({ s with eom := s.eom * sym ("_delta" ++ p.ind) } : Dyn) := by
    intro d hd
    rw [← List.map_append]
    exact List.mem_map.2 ⟨d, hd, rfl⟩
  constructor
  · intro hf t ht d hd
    have htT : t / T ∈ Set.Icc (0 : ℝ) 1 := ⟨div_nonneg ht.1 hT.le, (div_le_one hT).2 ht.2⟩
    have := hf (t / T) htT _ (hmem d hd)
    simp only [eval_mul, one_mul] at this ⊢
    have e : eval (real U) (ρ (t / T)) (sym ("_delta" ++ p.ind)) = T := hdelta _ htT
    rw [e, mul_comm, hsc, mul_div_cancel₀ t hT.ne'] at this
    exact this
  · intro hf τ hτ d' hd'
    rw [← List.map_append] at hd'
    obtain ⟨d, hd, rfl⟩ := List.mem_map.1 hd'
    have htT : T * τ ∈ Set.Icc (0 : ℝ) T := ⟨mul_nonneg hT.le hτ.1, by nlinarith [hτ.2]⟩
    have := hf (T * τ) htT d hd
    simp only [eval_mul, one_mul] at this ⊢
    have e : eval (real U) (ρ τ) (sym ("_delta" ++ p.ind)) = T := hdelta _ hτ
    rw [mul_div_cancel_left₀ τ hT.ne'] at this
    rw [e, mul_comm, hsc]
    exact this

/-- The property fails for quadratures and for the costates of parameters: their rates are not rescaled, so that a curve
follows the normalised equations exactly if the curve run through in time `T` has `1/T` times the original rates. -/
theorem C32_violated {p p' : Prob} (h : normalizeTime p = .ok p') (U : Name → Nat → ℝ → ℝ) {T : ℝ} (hT : 0 < T)
    (ρ : ℝ → Name → ℝ) :
    Follows U (p'.quads ++ p'.coparameters) 1 0 1 ρ ↔
      Follows U (p.quads ++ p.coparameters) (1 / T) 0 T fun t => ρ (t / T) := by
  have hp := normalizeTime_ok h
  subst hp
  constructor
  · intro hf t ht d hd
    have htT : t / T ∈ Set.Icc (0 : ℝ) 1 := ⟨div_nonneg ht.1 hT.le, (div_le_one hT).2 ht.2⟩
    have hd' := hf (t / T) htT d hd
    have hin : HasDerivAt (fun t : ℝ => t / T) (1 / T) t := (hasDerivAt_id' t).div_const T
    have := HasDerivAt.comp t hd' hin
    refine this.congr_deriv ?_
    ring
  · intro hf τ hτ d hd
    have htT : T * τ ∈ Set.Icc (0 : ℝ) T := ⟨mul_nonneg hT.le hτ.1, by nlinarith [hτ.2]⟩
    have hd' := hf (T * τ) htT d hd
    have hin : HasDerivAt (fun τ : ℝ => T * τ) T τ := by
      simpa using (hasDerivAt_id' τ).const_mul T
    have := HasDerivAt.comp τ hd' hin
    have e : ((fun t => ρ (t / T) d.name) ∘ fun τ => T * τ) = fun τ => ρ τ d.name := by
      funext τ
      simp only [Function.comp_apply]
      rw [mul_div_cancel_left₀ τ hT.ne']
    rw [e] at this
    simp only [mul_div_cancel_left₀ τ hT.ne'] at this
    refine this.congr_deriv ?_
    field_simp

/-- The state's rate is multiplied by the duration, the quadrature's is not. -/
example : (normalizeTime { exF with quads := [⟨"q", 1⟩] }).map (fun p => (p.states ++ p.quads).map fun d =>
      (d.name, eval (⟨3, fun _ x => x⟩ : Interp ℚ) (fun s => if s = "_delta_t" then 4 else 1) d.eom)) =
    .ok [("t", 4), ("q", 1)] := by decide +kernel

end Beluga.Sym
