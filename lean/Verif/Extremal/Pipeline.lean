import Verif.Extremal.Core
import Verif.Extremal.Diffyg
import Verif.Symbolic.Props4
import Verif.Symbolic.Props6

/-! # From the generated boundary value problem to the dual problem -/

namespace Beluga.Opt

open Beluga.Sym Beluga.Sym.Expr

variable {U : Name → Nat → ℝ → ℝ}

/-- A problem before `Dualize` whose names do not clash with the generated ones. -/
structure Clean (q : Prob) : Prop extends Named q where
  sympified : q.sympified = true
  costates : q.costates = []
  coparameters : q.coparameters = []
  parameters : q.parameters = []
  law : q.controlLaw = []
  free : ∀ s ∈ (hexpr q).free, s ∉ q.quads.map Dyn.name ∧ s ≠ q.ind ∧ s ≠ "_tau"
  delta : "_delta" ++ q.ind ∉ q.states.map Dyn.name ++ q.states.map (fun s => lamName s.name) ++ q.controls ++
    q.quads.map Dyn.name
  delta_tau : "_delta" ++ q.ind ≠ "_tau"
  lam_controls : ∀ u ∈ q.controls, lamName u ∉ (hexpr q).free ∧ lamName u ≠ "_delta" ++ q.ind

/-- Regularity of a curve: everything that is differentiated is differentiable along it, and the generated rates and
control laws are defined along it.  With the method 'diffyg' the entries of the symplectic form and the rates of the
costates before the control law are defined, too. -/
structure Regular (S : Sympy) (U : Name → Nat → ℝ → ℝ) (q p' : Prob) (a b : ℝ) (ρ : ℝ → Env) : Prop where
  rates : ∀ t ∈ Set.Icc a b, SmoothRates q U (ρ t)
  start : SmoothStart q U (ρ a)
  stop : SmoothStop q U (ρ b)
  ham : ∀ t ∈ Set.Icc a b, ∀ u ∈ q.controls, Smooth U (ρ t) ((hexpr q).diff u)
  defined : ∀ t ∈ Set.Icc a b, ∀ d ∈ p'.states, Defined (real U) (ρ t) d.eom
  law : ∀ t ∈ Set.Icc a b, ∀ opt ∈ p'.controlLaw, ∀ e ∈ opt, Defined (real U) (ρ t) e
  controls : ∀ t ∈ Set.Icc a b, ∀ u ∈ p'.controls, DifferentiableAt ℝ (fun τ => ρ τ u) t
  form : ∀ om, p'.omega = some om → ∀ t ∈ Set.Icc a b, (∀ row ∈ om, ∀ e ∈ row, Defined (real U) (ρ t) e) ∧
    ∀ qd, dualize S .diffyg q = .ok qd → ∀ d ∈ qd.costates, Defined (real U) (ρ t) d.eom

/-- The factor between time and the parameter of the curve. -/
noncomputable def pace (norm : Bool) (ind : Name) (a : ℝ) (ρ : ℝ → Env) : ℝ :=
  if norm then ρ a ("_delta" ++ ind) else 1

theorem follows_append {L M : List Dyn} {c a b : ℝ} {ρ : ℝ → Env} :
    Follows U (L ++ M) c a b ρ ↔ Follows U L c a b ρ ∧ Follows U M c a b ρ := by
  constructor
  · intro h
    exact ⟨fun t ht d hd => h t ht d (List.mem_append_left _ hd), fun t ht d hd => h t ht d (List.mem_append_right _ hd)⟩
  · rintro ⟨h1, h2⟩ t ht d hd
    rcases List.mem_append.1 hd with hd | hd
    · exact h1 t ht d hd
    · exact h2 t ht d hd

theorem moves_const {a b : ℝ} {ρ : ℝ → Env} {s : Name} (h : Moves a b ρ 0 s) : ∀ t ∈ Set.Icc a b, ρ t s = ρ a s := by
  intro t ht
  rw [eq_end_of_deriv_zero h t ht, eq_end_of_deriv_zero h a ⟨le_refl _, ht.1.trans ht.2⟩]

/-- What the functors after the control law do. -/
theorem tail_ok {S : Sympy} {norm jac : Bool} {q1 p' : Prob}
    (h : runSteps S ((if norm then [Step.normalizeTime] else []) ++ [.squash] ++ (if jac then [.jacobians] else [])) q1 = .ok p') :
    p'.states = (if norm then (q1.states ++ q1.costates).map fun s => ⟨s.name, s.eom * sym ("_delta" ++ q1.ind)⟩
      else q1.states ++ q1.costates) ∧ p'.initial = q1.initial ∧ p'.terminal = q1.terminal ∧ p'.controls = q1.controls ∧
      p'.controlLaw = q1.controlLaw ∧ p'.quads = q1.quads ++ q1.coparameters ∧
      p'.ind = if norm then "_tau" else q1.ind := by
  rw [List.append_assoc, runSteps_append] at h
  obtain ⟨q2, h2, h⟩ := bind_ok h
  rw [runSteps_append] at h
  obtain ⟨q3, h3, h4⟩ := bind_ok h
  have hsq : q3 = { q2 with
      states := q2.states ++ q2.costates, costates := [], quads := q2.quads ++ q2.coparameters, coparameters := []
      constraintParams := q2.constraintParams ++ q2.adjoints, adjoints := [], chain := q3.chain, dualized := false } := by
    rw [runSteps_cons] at h3
    obtain ⟨r, hr, h3⟩ := bind_ok h3
    cases h3
    cases hr
    rfl
  have hj : p'.states = q3.states ∧ p'.initial = q3.initial ∧ p'.terminal = q3.terminal ∧ p'.controls = q3.controls ∧
      p'.controlLaw = q3.controlLaw ∧ p'.quads = q3.quads ∧ p'.ind = q3.ind := by
    cases jac
    · cases h4
      exact ⟨rfl, rfl, rfl, rfl, rfl, rfl, rfl⟩
    · simp only [if_true] at h4
      rw [runSteps_cons] at h4
      obtain ⟨r, hr, h4⟩ := bind_ok h4
      cases h4
      obtain ⟨_, _, rfl⟩ := jacobians_ok hr
      exact ⟨rfl, rfl, rfl, rfl, rfl, rfl, rfl⟩
  obtain ⟨j1, j2, j3, j4, j5, j6, j7⟩ := hj
  rw [j1, j2, j3, j4, j5, j6, j7, hsq]
  cases norm
  · cases h2
    simp
  · simp only [if_true] at h2
    rw [runSteps_cons] at h2
    obtain ⟨r, hr, h2⟩ := bind_ok h2
    cases h2
    have := normalizeTime_ok hr
    rw [this]
    simp

/-- Following the normalised equations is following the others at another pace. -/
theorem follows_pace {norm : Bool} {L : List Dyn} {ind : Name} {a b : ℝ} {ρ : ℝ → Env}
    (hd : norm = true → Moves a b ρ 0 ("_delta" ++ ind))
    (h : Follows U (if norm then L.map fun s => ⟨s.name, s.eom * sym ("_delta" ++ ind)⟩ else L) 1 a b ρ) :
    Follows U L (pace norm ind a ρ) a b ρ := by
  cases norm
  · simpa [pace] using h
  · intro t ht d hdm
    have := h t ht ⟨d.name, d.eom * sym ("_delta" ++ ind)⟩ (by simp only [if_true]; exact List.mem_map.2 ⟨d, hdm, rfl⟩)
    refine this.congr_deriv ?_
    rw [eval_mul, show eval (real U) (ρ t) (sym ("_delta" ++ ind)) = ρ t ("_delta" ++ ind) from rfl,
      moves_const (hd rfl) t ht, pace, if_pos rfl]
    ring

theorem mapM_pairs {α β : Type} {f : α → Py β} : ∀ {l : List α} {m : List β}, l.mapM f = .ok m →
    List.Forall₂ (fun a b => f a = .ok b) l m
  | [], m, h => by cases h; exact .nil
  | x :: xs, m, h => by
    rw [List.mapM_cons] at h
    obtain ⟨y, hy, h⟩ := bind_ok h
    obtain ⟨ys, hys, h⟩ := bind_ok h
    cases h
    exact .cons hy (mapM_pairs hys)

theorem algebraic_ok {S : Sympy} {p p' : Prob} {H : Expr} (hH : p.hamiltonian = some H) (h : algebraicControl S p = .ok p') :
    ∃ dhdu chain, p' = { p with dhdu := dhdu, controlLaw := p'.controlLaw, chain := chain } ∧
      List.Forall₂ (fun sol opt => pickOption p.controls sol = .ok opt) (S.solve (p.controls.map fun u => H.diff u) p.controls)
        p'.controlLaw := by
  rw [algebraicControl] at h
  split at h
  · cases h
  · rw [hH] at h
    obtain ⟨law, hl, h⟩ := bind_ok h
    cases h
    refine ⟨p.controls.map fun u => H.diff u, p.chain ++ [.algebraic], by simp only [hH], ?_⟩
    exact mapM_pairs hl

theorem pickOption_ok {sol : List (Name × Expr)} : ∀ {controls : List Name} {opt : List Expr},
    pickOption controls sol = .ok opt → List.Forall₂ (fun u e => sol.lookup u = some e) controls opt
  | [], opt, h => by cases h; exact .nil
  | u :: us, opt, h => by
    rw [pickOption, List.mapM_cons] at h
    obtain ⟨e, he, h⟩ := bind_ok h
    obtain ⟨es, hes, h⟩ := bind_ok h
    cases h
    refine .cons ?_ (pickOption_ok hes)
    cases hl : sol.lookup u with
    | none => rw [hl] at he; cases he
    | some e' => rw [hl] at he; cases he; rfl

theorem forall₂_both {α β : Type} {R Q : α → β → Prop} : ∀ {l : List α} {m : List β}, List.Forall₂ R l m →
    List.Forall₂ Q l m → ∀ a ∈ l, ∃ b ∈ m, R a b ∧ Q a b
  | _, _, .nil, .nil, a, h => by cases h
  | _, _, .cons r rs, .cons q qs, a, h => by
    rcases List.mem_cons.1 h with rfl | h
    · exact ⟨_, List.mem_cons_self, r, q⟩
    · obtain ⟨b, hb, h1⟩ := forall₂_both rs qs a h
      exact ⟨b, List.mem_cons_of_mem _ hb, h1⟩

theorem forall₂_right {α β : Type} {R : α → β → Prop} : ∀ {l : List α} {m : List β}, List.Forall₂ R l m →
    ∀ b ∈ m, ∃ a ∈ l, R a b
  | _, _, .nil, b, h => by cases h
  | _, _, .cons r rs, b, h => by
    rcases List.mem_cons.1 h with rfl | h
    · exact ⟨_, List.mem_cons_self, r⟩
    · obtain ⟨a, ha, h1⟩ := forall₂_right rs b h
      exact ⟨a, List.mem_cons_of_mem _ ha, h1⟩

/-- What `Dualize` makes of a problem without parameters: with either method the costates follow the adjoint equations. -/
structure Dualized (q qd : Prob) : Prop where
  ham : qd.hamiltonian = some (hexpr q)
  states : qd.states = q.states
  controls : qd.controls = q.controls
  ind : qd.ind = q.ind
  parameters : qd.parameters = q.parameters
  constants : qd.constants = q.constants
  initial : qd.initial = q.initial ++ (q.states.map Dyn.name).map fun n => { expr := sym (lamName n) + (phi0 q).diff n }
  terminal : qd.terminal = q.terminal ++ ((q.states.map Dyn.name).map fun n =>
    ({ expr := sym (lamName n) - (phif q).diff n } : Con)) ++ [{ expr := (phif q).diff q.ind + hexpr q }]
  quads : qd.quads = q.quads
  coparameters : qd.coparameters = []
  law : qd.controlLaw = q.controlLaw
  chain : ∃ n m, qd.chain = q.chain ++ [.dualize n m]
  costates : List.Forall₂ (fun l s : Dyn => l.name = lamName s.name ∧ ∀ (U : Name → Nat → ℝ → ℝ) (σ : Env),
    Defined (real U) σ l.eom → eval (real U) σ l.eom = -eval (real U) σ ((hexpr q).diff s.name)) qd.costates q.states

theorem dualize_any {S : Sympy} (hL : LuSound S) {q qd : Prob} (hq : Clean q) {m : Method} (hm : m ≠ .other)
    (h : dualize S m q = .ok qd) : Dualized q qd := by
  have key : ∀ qt, dualize S .traditional q = .ok qt → Dualized q qt ∧
      qt.costates = q.states.map fun s => ⟨lamName s.name, -((hexpr q).diff s.name)⟩ := by
    intro qt hd
    rw [dualize_traditional S q hq.sympified hq.costates hq.coparameters] at hd
    simp only [Except.ok.injEq] at hd
    have hco : qt.costates = q.states.map fun s => ⟨lamName s.name, -((hexpr q).diff s.name)⟩ := by
      rw [← hd]; simp [Function.comp_def]
    refine ⟨⟨by rw [← hd], by rw [← hd], by rw [← hd], by rw [← hd], by rw [← hd], by rw [← hd],
      by rw [← hd]; simp [hq.parameters], by rw [← hd]; simp [hq.parameters], by rw [← hd],
      by rw [← hd]; simp [hq.parameters], by rw [← hd], ⟨_, _, by rw [← hd]⟩, ?_⟩, hco⟩
    rw [hco, List.forall₂_map_left_iff]
    exact List.forall₂_same.2 fun s _ => ⟨rfl, fun U σ _ => by rw [eval_neg]⟩
  cases m with
  | other => exact absurd rfl hm
  | traditional => exact (key qd h).1
  | diffyg =>
    obtain ⟨qt, ht, e, hco⟩ := C30_dualize_partial hL hq.sympified hq.costates hq.coparameters hq.parameters h
    obtain ⟨k, kco⟩ := key qt ht
    obtain ⟨n, m, kch⟩ := k.chain
    refine ⟨(congrArg Prob.hamiltonian e).trans k.ham, (congrArg Prob.states e).trans k.states,
      (congrArg Prob.controls e).trans k.controls, (congrArg Prob.ind e).trans k.ind,
      (congrArg Prob.parameters e).trans k.parameters, (congrArg Prob.constants e).trans k.constants,
      (congrArg Prob.initial e).trans k.initial, (congrArg Prob.terminal e).trans k.terminal,
      (congrArg Prob.quads e).trans k.quads, (congrArg Prob.coparameters e).trans k.coparameters,
      (congrArg Prob.controlLaw e).trans k.law, ⟨n, m, (congrArg Prob.chain e).trans kch⟩, ?_⟩
    rw [kco, List.forall₂_map_right_iff] at hco
    refine hco.imp fun l s hls => ⟨hls.1, fun U σ hd => ?_⟩
    rw [hls.2 (real U) σ hd, eval_neg]

theorem Dualized.names {q qd : Prob} (h : Dualized q qd) : qd.costates.map Dyn.name = q.states.map fun s => lamName s.name := by
  have := h.costates
  generalize qd.costates = L at this
  generalize q.states = M at this
  induction this with
  | nil => rfl
  | cons h1 _ ih => rw [List.map_cons, List.map_cons, ih, h1.1]

/-- Following the generated costate equations is following the adjoint equations. -/
theorem Dualized.follows {q qd : Prob} (h : Dualized q qd) {c a b : ℝ} {ρ : ℝ → Env}
    (hd : ∀ t ∈ Set.Icc a b, ∀ d ∈ qd.costates, Defined (real U) (ρ t) d.eom) (hf : Follows U qd.costates c a b ρ) :
    Follows U (q.states.map fun s => ⟨lamName s.name, -((hexpr q).diff s.name)⟩) c a b ρ := by
  intro t ht d hdm
  obtain ⟨s, hs, rfl⟩ := List.mem_map.1 hdm
  obtain ⟨l, hl, e1, e2⟩ := forall₂_right h.costates s hs
  have := hf t ht l hl
  rw [e1, e2 U _ (hd t ht l hl)] at this
  rw [eval_neg]
  exact this

theorem Dualized.follows_back {q qd : Prob} (h : Dualized q qd) {c a b : ℝ} {ρ : ℝ → Env}
    (hd : ∀ t ∈ Set.Icc a b, ∀ d ∈ qd.costates, Defined (real U) (ρ t) d.eom)
    (hf : Follows U (q.states.map fun s => ⟨lamName s.name, -((hexpr q).diff s.name)⟩) c a b ρ) :
    Follows U qd.costates c a b ρ := by
  intro t ht l hl
  obtain ⟨s, hs, e1, e2⟩ := forall₂_right h.costates.flip l hl
  have := hf t ht _ (List.mem_map.2 ⟨s, hs, rfl⟩)
  rw [e1, e2 U _ (hd t ht l hl)]
  rwa [eval_neg] at this

theorem tail_omega {S : Sympy} {norm jac : Bool} {q1 p' : Prob}
    (h : runSteps S ((if norm then [Step.normalizeTime] else []) ++ [.squash] ++ (if jac then [.jacobians] else [])) q1 = .ok p') :
    p'.omega = q1.omega := by
  rw [List.append_assoc, runSteps_append] at h
  obtain ⟨q2, h2, h⟩ := bind_ok h
  rw [runSteps_append] at h
  obtain ⟨q3, h3, h4⟩ := bind_ok h
  have e3 : q3.omega = q2.omega := by
    rw [runSteps_cons] at h3
    obtain ⟨r, hr, h3⟩ := bind_ok h3
    cases h3
    cases hr
    rfl
  have e4 : p'.omega = q3.omega := by
    cases jac
    · cases h4; rfl
    · simp only [if_true] at h4
      rw [runSteps_cons] at h4
      obtain ⟨r, hr, h4⟩ := bind_ok h4
      cases h4
      obtain ⟨_, _, rfl⟩ := jacobians_ok hr
      rfl
  have e2 : q2.omega = q1.omega := by
    cases norm
    · cases h2; rfl
    · simp only [if_true] at h2
      rw [runSteps_cons] at h2
      obtain ⟨r, hr, h2⟩ := bind_ok h2
      cases h2
      rw [normalizeTime_ok hr]
  rw [e4, e3, e2]

/-- What `DifferentialControlLaw` does, besides the rates. -/
structure Differential (m : Method) (q q1 : Prob) : Prop where
  names : q1.states.map Dyn.name = q.states.map Dyn.name ++ q.controls
  lams : q1.costates.map Dyn.name = q.states.map (fun s => lamName s.name) ++
    (if m = .diffyg then q.controls.map lamName else [])
  ind : q1.ind = q.ind
  quads : q1.quads = q.quads
  coparameters : q1.coparameters = []
  parameters : q1.parameters = q.parameters
  constants : q1.constants = q.constants
  controls : q1.controls = []

theorem differential_any {S : Sympy} (hL : LuSound S) {q qd q1 : Prob} {m : Method} (hd : Dualized q qd)
    (h : differentialControl S m qd = .ok q1) : Differential m q q1 := by
  cases m with
  | other =>
    exfalso
    rw [differentialControl] at h
    split at h
    · cases h
    · rw [hd.ham] at h
      obtain ⟨_, -, h⟩ := bind_ok h
      obtain ⟨_, -, h⟩ := bind_ok h
      obtain ⟨_, -, h⟩ := bind_ok h
      cases h
  | traditional =>
    obtain ⟨-, -, H, udot, hH, hlu, e⟩ := differential_traditional h
    obtain ⟨hlen, -⟩ := udot_solves hL hlu
    have hnm := ctlStates_names hlen
    have hcl : (ctlStates qd.controls udot).length = qd.controls.length := by
      rw [← congrArg List.length hnm, List.length_map]
    refine ⟨?_, ?_, ?_, ?_, ?_, ?_, ?_, ?_⟩
    · rw [e]; simp only [List.map_append]; rw [hnm, hd.states, hd.controls]
    · rw [e]; simp [hd.names]
    · rw [e]; exact hd.ind
    · rw [e]; exact hd.quads
    · rw [e]; exact hd.coparameters
    · rw [e]; exact hd.parameters
    · rw [e]; exact hd.constants
    · rw [e]; simp [hcl]
  | diffyg =>
    obtain ⟨-, -, H, udot, chi, hH, hlu, hlen, hvf, e⟩ := differential_diffyg h
    obtain ⟨hul, -⟩ := udot_solves hL hlu
    have hnm := ctlStates_names hul
    have hcl : (ctlStates qd.controls udot).length = qd.controls.length := by
      rw [← congrArg List.length hnm, List.length_map]
    have hlam : (ctlStates qd.controls udot).map (fun d => lamName d.name) = qd.controls.map lamName := by
      rw [← hnm, List.map_map, hnm]; rfl
    refine ⟨?_, ?_, ?_, ?_, ?_, ?_, ?_, ?_⟩
    · rw [e]
      simp only [List.map_take, setEoms_names, List.map_append]
      rw [List.take_left' (by simp), hnm, hd.states, hd.controls]
    · rw [e]
      simp only [List.map_drop, setEoms_names, List.map_append]
      rw [List.drop_left' (by simp), hd.names, if_pos trivial, List.map_map]
      congr 1
      rw [← hd.controls]
      exact hlam
    · rw [e]; exact hd.ind
    · rw [e]; exact hd.quads
    · rw [e]; exact hd.coparameters
    · rw [e]; exact hd.parameters
    · rw [e]; exact hd.constants
    · rw [e]

/-- A solution of what `Dualize`, a control law, `NormalizeTime`, `SquashToBVP` and `ComputeAnalyticalJacobians` make of
`q` solves the dual problem of `q`.  The algebraic control law makes the controls stationary; with the differential control
law that is one of the terminal conditions. -/
theorem pipeline {S : Sympy} (hL : LuSound S) {q p' : Prob} (hq : Clean q) {m : Method} (hm : m ≠ .other) {ctl : Step}
    {norm jac : Bool} (hctl : ctl = .algebraic ∧ SolveSound S ∨ ctl = .differential m)
    (hlast : ctl = .differential .diffyg → ∃ init tn, q.states = init ++ [⟨tn, 1⟩])
    (h : runSteps S ([.dualize m, ctl] ++ (if norm then [.normalizeTime] else []) ++ [.squash] ++
      (if jac then [.jacobians] else [])) q = .ok p') {ε η a b : ℝ} {ρ : ℝ → Env} (hab : a ≤ b)
    (hη : η = 0 ∧ ctl = .algebraic ∨ η = ε) (hε : 0 ≤ ε) (hs : NearlySolves U p' ε a b ρ)
    (hr : Regular S U q p' a b ρ) (hpos : norm = true → 0 < ρ a ("_delta" ++ q.ind)) :
    DualNear U q ε η (pace norm q.ind a ρ) a b ρ ∧
      (∀ s, s ∉ q.states.map Dyn.name ++ q.states.map (fun s => lamName s.name) ++ q.controls ++ q.quads.map Dyn.name →
        s ∉ q.controls.map lamName → s ≠ q.ind → s ≠ "_tau" → Moves a b ρ 0 s) := by
  rw [List.append_assoc, List.append_assoc, List.cons_append, List.cons_append, List.nil_append, runSteps_cons] at h
  obtain ⟨qd, hd, h⟩ := bind_ok h
  rw [runSteps_cons] at h
  obtain ⟨q1, h1, h⟩ := bind_ok h
  have hd : dualize S m q = .ok qd := hd
  rw [← List.append_assoc] at h
  obtain ⟨t1, t2, t3, t4, t5, t6, t7⟩ := tail_ok h
  have t8 := tail_omega h
  have hD := dualize_any hL hq hm hd
  -- the names that move
  have hfixed : q1.ind = q.ind → q1.quads = q.quads → q1.coparameters = [] →
      (∀ s ∈ (q1.states ++ q1.costates).map Dyn.name ++ q1.controls,
        s ∈ q.states.map Dyn.name ++ q.states.map (fun s => lamName s.name) ++ q.controls ∨ s ∈ q.controls.map lamName) →
      ∀ s, s ∉ q.states.map Dyn.name ++ q.states.map (fun s => lamName s.name) ++ q.controls ++ q.quads.map Dyn.name →
        s ∉ q.controls.map lamName → s ≠ q.ind → s ≠ "_tau" → Moves a b ρ 0 s := by
    intro e1 e2 e3 e4 s hs1 hs4 hs2 hs3
    rw [List.mem_append, not_or] at hs1
    have hnm : ∀ x ∈ p'.states.map Dyn.name, x ∈ (q1.states ++ q1.costates).map Dyn.name := by
      intro x hx
      rw [t1] at hx
      split at hx
      · rw [List.map_map] at hx
        exact hx
      · exact hx
    refine hs.fixed s (fun hx => (e4 s (List.mem_append_left _ (hnm s hx))).elim hs1.1 hs4) ?_ ?_ ?_
    · rw [t6, e2, e3, List.append_nil]
      exact hs1.2
    · rw [t4]
      exact fun hx => (e4 s (List.mem_append_right _ hx)).elim hs1.1 hs4
    · rw [t7]
      split
      · exact hs3
      · rw [e1]; exact hs2
  have hpace : q1.ind = q.ind → (∀ s, s ∉ q.states.map Dyn.name ++ q.states.map (fun s => lamName s.name) ++ q.controls ++
        q.quads.map Dyn.name → s ∉ q.controls.map lamName → s ≠ q.ind → s ≠ "_tau" → Moves a b ρ 0 s) →
      Follows U (q1.states ++ q1.costates) (pace norm q.ind a ρ) a b ρ := by
    intro e1 hf
    have := hs.follows
    rw [t1, e1] at this
    refine follows_pace (fun _ => hf _ hq.delta ?_ ?_ hq.delta_tau) this
    · intro hx
      obtain ⟨u, hu, e⟩ := List.mem_map.1 hx
      exact (hq.lam_controls u hu).2 e
    intro e
    have h2 := congrArg String.length e
    rw [String.length_append] at h2
    have h3 : "_delta".length = 6 := by decide
    omega
  have hcpos : 0 < pace norm q.ind a ρ := by
    rw [pace]
    split
    · next hn => exact hpos hn
    · exact one_pos
  have hdef : ∀ t ∈ Set.Icc a b, ∀ d ∈ q1.states ++ q1.costates, Defined (real U) (ρ t) d.eom := by
    intro t ht d hd
    cases norm
    · exact hr.defined t ht d (by rw [t1]; simpa using hd)
    · have := hr.defined t ht ⟨d.name, d.eom * sym ("_delta" ++ q1.ind)⟩ (by
        rw [t1, if_pos rfl]
        exact List.mem_map.2 ⟨d, hd, rfl⟩)
      exact this.1
  rcases hctl with ⟨rfl, hsol⟩ | rfl
  · -- algebraic
    have h1 : algebraicControl S qd = .ok q1 := h1
    obtain ⟨dhdu, chain, e, hlaw⟩ := algebraic_ok hD.ham h1
    have g1 : q1.states = qd.states := by rw [e]
    have g2 : q1.costates = qd.costates := by rw [e]
    have g3 : q1.ind = qd.ind := by rw [e]
    have g4 : q1.quads = qd.quads := by rw [e]
    have g5 : q1.coparameters = qd.coparameters := by rw [e]
    have g6 : q1.controls = qd.controls := by rw [e]
    have g7 : q1.initial = qd.initial := by rw [e]
    have g8 : q1.terminal = qd.terminal := by rw [e]
    have hf := hfixed (g3.trans hD.ind) (g4.trans hD.quads) (g5.trans hD.coparameters) (by
      intro s hs
      rw [List.map_append, g1, g2, hD.names, g6, hD.controls, hD.states] at hs
      exact Or.inl hs)
    have hfol := hpace (g3.trans hD.ind) hf
    rw [g1, g2, hD.states, follows_append] at hfol
    obtain ⟨l1, l2⟩ := last_of_follows (U := U) (hD.follows (fun t ht d hd => hdef t ht d (by
      rw [g2]; exact List.mem_append_right _ hd)) hfol.2)
    refine ⟨⟨hcpos, hfol.1, l1, l2, ?_, ?_, ?_, ?_⟩, hf⟩
    · intro u hu t ht
      exact ⟨_, (hr.controls t ht u (by rw [t4, g6, hD.controls]; exact hu)).hasDerivAt⟩
    · intro u hu
      suffices key : ∀ t ∈ Set.Icc a b, eval (real U) (ρ t) ((hexpr q).diff u) = 0 by
        have hη0 : 0 ≤ η := by rcases hη with hη | hη <;> simp [hη, hε]
        rw [key b ⟨hab, le_refl _⟩, abs_zero]
        exact ⟨hη0, key⟩
      intro t ht
      have hne : p'.controls ≠ [] := by
        rw [t4, g6, hD.controls]
        exact List.ne_nil_of_mem hu
      obtain ⟨opt, hopt, hval⟩ := hs.law hne t ht
      rw [t4, g6, hD.controls] at hval
      have hopt' := hopt
      rw [t5] at hopt
      rw [hD.controls] at hlaw
      obtain ⟨sol, hsm, hpk⟩ := forall₂_right hlaw opt hopt
      refine hsol U _ _ sol hsm (ρ t) ?_ _ (List.mem_map_of_mem hu)
      intro x hx
      obtain ⟨e, he, h2, h3⟩ := forall₂_both (pickOption_ok hpk) hval x hx
      exact ⟨e, h2, hr.law t ht opt hopt' e he, h3⟩
    · have := hs.initial
      rwa [t2, g7, hD.initial] at this
    · have := hs.terminal
      rwa [t3, g8, hD.terminal] at this
  · -- differential
    have h1 : differentialControl S m qd = .ok q1 := h1
    have hX := differential_any hL hD h1
    have hf := hfixed hX.ind hX.quads hX.coparameters (by
      intro s hs
      rw [List.map_append, hX.names, hX.lams, hX.controls, List.append_nil] at hs
      simp only [List.mem_append] at hs ⊢
      rcases hs with (hs | hs) | hs | hs
      · exact .inl (.inl (.inl hs))
      · exact .inl (.inr hs)
      · exact .inl (.inl (.inr hs))
      · split at hs
        · exact .inr hs
        · cases hs)
    have hfol := hpace hX.ind hf
    have hηε : η = ε := hη.resolve_left fun hh => by cases hh.2
    have hfree : ∀ s ∈ (hexpr q).free, s ∉ q.states.map Dyn.name ++ q.states.map (fun s => lamName s.name) ++ q.controls →
        Moves a b ρ 0 s := by
      intro s hs hns
      have h3 := hq.free s hs
      refine hf s (by rw [List.mem_append, not_or]; exact ⟨hns, h3.1⟩) ?_ h3.2.1 h3.2.2
      intro hx
      obtain ⟨u, hu, rfl⟩ := List.mem_map.1 hx
      exact (hq.lam_controls u hu).1 hs
    cases m with
    | other => exact absurd rfl hm
    | traditional =>
      obtain ⟨-, -, H, udot, hH, hlu, e⟩ := differential_traditional h1
      rw [hD.ham] at hH
      cases hH
      obtain ⟨hlen, -⟩ := udot_solves hL hlu
      have hnm := ctlStates_names hlen
      have g1 : q1.states = qd.states ++ ctlStates qd.controls udot := by rw [e]
      have g2 : q1.costates = qd.costates := by rw [e]
      have g7 : q1.initial = qd.initial := by rw [e]
      have g8 : q1.terminal = qd.terminal ++ (gOf (hexpr q) qd.controls).map fun gk => ({ expr := gk } : Con) := by rw [e]
      have hfol' := hfol
      rw [follows_append, g1, g2, hD.states, follows_append] at hfol
      obtain ⟨l1, l2⟩ := last_of_follows (U := U) (hD.follows (fun t ht d hd => hdef t ht d (by
        rw [g2]; exact List.mem_append_right _ hd)) hfol.2)
      refine ⟨⟨hcpos, hfol.1.1, l1, l2, ?_, ?_, ?_, ?_⟩, hf⟩
      · intro u hu t ht
        have : u ∈ (ctlStates qd.controls udot).map Dyn.name := by rw [hnm, hD.controls]; exact hu
        obtain ⟨d, hd, rfl⟩ := List.mem_map.1 this
        exact ⟨_, hfol.1.2 t ht d hd⟩
      · intro u hu
        refine (stationary_const hL h1 hD.ham ?_ hfol' ?_ ?_ ?_ u (by rw [hD.controls]; exact hu)).imp_left fun hm => ?_
        · rw [List.map_append, hD.names, hD.states, hD.controls]
          exact hq.nodup
        · intro s hs hns
          rw [List.map_append, hD.names, hD.states, hD.controls] at hns
          exact hfree s hs hns
        · intro t ht u hu
          exact hr.ham t ht u (by rw [← hD.controls]; exact hu)
        · intro t ht d hd
          exact hdef t ht d (List.mem_append_left _ hd)
        · rw [← t3] at hm
          rw [hηε]
          exact hs.terminal _ hm
      · have := hs.initial
        rwa [t2, g7, hD.initial] at this
      · have := hs.terminal
        rw [t3, g8, hD.terminal] at this
        exact fun c hc => this c (List.mem_append_left _ hc)
    | diffyg =>
      obtain ⟨init, tn, hlast⟩ := hlast rfl
      obtain ⟨d1, d2, d3, d4, d5⟩ := diffyg_dual hL hq.sympified hq.costates hq.coparameters hq.parameters hlast hq.lam hd h1
        (fun u hu => (hq.lam_controls u hu).1) hq.nodup hfree hr.ham (by
          intro t ht
          obtain ⟨_, _, _, _, _, _, _, _, _, e⟩ := differential_diffyg h1
          obtain ⟨om, hom⟩ : ∃ om, q1.omega = some om := ⟨_, by rw [e]⟩
          refine ⟨hdef t ht, fun om hom => (hr.form om (by rw [t8, hom]) t ht).1, ?_⟩
          exact (hr.form om (by rw [t8, hom]) t ht).2 qd hd) hfol
      obtain ⟨_, _, _, _, _, _, hini, hter, -⟩ := diffyg_values hL hq.sympified hq.costates hq.coparameters hq.parameters hd h1
        ⟨init, tn, hlast⟩ hq.lam fun u hu => (hq.lam_controls u hu).1
      refine ⟨⟨hcpos, d1, d2, ⟨1, zero_le_one, le_refl _, ?_⟩, d4, ?_, ?_, ?_⟩, hf⟩
      · intro s hs t ht
        rw [hlast, List.getLast?_append, List.getLast?_singleton] at hs
        cases hs
        rw [one_mul]
        exact d3 t ht
      · intro u hu
        refine ⟨?_, d5 u hu⟩
        rw [hηε]
        exact hs.terminal { expr := (hexpr q).diff u } (by
          rw [t3, hter, List.mem_append]
          exact Or.inr (List.mem_map.2 ⟨u, hu, rfl⟩))
      · have := hs.initial
        rw [t2, hini, hD.initial] at this
        exact fun c hc => this c (List.mem_append_left _ hc)
      · have := hs.terminal
        rw [t3, hter, hD.terminal] at this
        exact fun c hc => this c (List.mem_append_left _ hc)

end Beluga.Opt
