import Verif.Extremal.User
import Verif.Symbolic.Props1
import Verif.Symbolic.Props7

/-! # From the user's problem to the problem before dualisation -/

namespace Beluga.Opt

open Beluga.Sym Beluga.Sym.Expr

/-- The problem after `sympify`. -/
abbrev sym0 (p : Prob) : Prob := { p with
  sympified := true, quantities := p.quantities.map Quantity.sympify, switches := p.switches.map Switch.sympify }

theorem defsQ_sym0 (p : Prob) : defsQ (sym0 p).quantities = defsQ p.quantities := by
  simp [defsQ, List.map_map, Function.comp_def, Quantity.sympify]

theorem defsQ_names (qs : List Quantity) : (defsQ qs).map Prod.fst = qs.map Quantity.name := by
  simp [defsQ, List.map_map, Function.comp_def]

theorem defsS_names (ss : List Switch) : (defsS ss).map Prod.fst = ss.map Switch.name := by
  simp [defsS, List.map_map, Function.comp_def]

/-- What `preprocess` does. -/
structure Pre (p p1 : Prob) (f : Expr → Expr) : Prop where
  eqs : p1.dropQuantities = ((sym0 p).dropQuantities).mapEqs f
  elim : Eliminates (defsQ p.quantities) f

theorem preprocess_ok {p p1 : Prob} (ha : Acyclic (defsQ p.quantities)) (h : preprocess p = .ok p1) : ∃ f, Pre p p1 f := by
  rw [preprocess] at h
  obtain ⟨p0, h0, h⟩ := bind_ok h
  rw [Prob.sympify] at h0
  split at h0
  · cases h0
  · cases h0
    obtain ⟨p', f, h1, h2, h3⟩ := C25_eliminated_partial (sym0 p) rfl (by rw [defsQ_sym0]; exact ha)
    have : applyQuantities (sym0 p) = .ok p1 := h
    rw [h1] at this
    cases this
    rw [defsQ_sym0] at h3
    exact ⟨f, h2, h3⟩

section
variable {p p1 : Prob} {f : Expr → Expr} (h : Pre p p1 f)
include h

theorem Pre.states : p1.states = p.states.map fun d => ⟨d.name, f d.eom⟩ := congrArg Prob.states h.eqs
theorem Pre.initial : p1.initial = p.initial.map (Con.rw f) := congrArg Prob.initial h.eqs
theorem Pre.path : p1.path = p.path.map (Con.rw f) := congrArg Prob.path h.eqs
theorem Pre.terminal : p1.terminal = p.terminal.map (Con.rw f) := congrArg Prob.terminal h.eqs
theorem Pre.switches : p1.switches = p.switches.map fun s =>
    ⟨s.name, s.functions, s.conditions, s.tol, f (rashsFunc s.tol s.functions s.conditions)⟩ := by
  have h1 : p1.switches = (p.switches.map Switch.sympify).map fun s => ⟨s.name, s.functions, s.conditions, s.tol, f s.symFunc⟩ :=
    congrArg Prob.switches h.eqs
  rw [h1, List.map_map]
  rfl
theorem Pre.costInitial : p1.costInitial = f p.costInitial := congrArg Prob.costInitial h.eqs
theorem Pre.costPath : p1.costPath = f p.costPath := congrArg Prob.costPath h.eqs
theorem Pre.costTerminal : p1.costTerminal = f p.costTerminal := congrArg Prob.costTerminal h.eqs
theorem Pre.controls : p1.controls = p.controls := by have := congrArg Prob.controls h.eqs; exact this
theorem Pre.constants : p1.constants = p.constants := by have := congrArg Prob.constants h.eqs; exact this
theorem Pre.ind : p1.ind = p.ind := by have := congrArg Prob.ind h.eqs; exact this
theorem Pre.sympified : p1.sympified = true := congrArg Prob.sympified h.eqs

theorem Pre.con (hp : Stated p) : ∀ c ∈ p.path, c.method = .epstrig → c.rw f = c := by
  intro c hc hm
  obtain ⟨u, a, lo, hi, e1, hu, -, e2, e3, e4, -⟩ := hp.reg.eps c hc hm
  have hu : u ∈ p.controls := hu
  have hb := hp.bounds c hc hm
  have hq : ∀ e : Expr, (∀ s ∈ e.free, s ∉ p.quantities.map Quantity.name) → f e = e := by
    intro e he
    exact h.elim.fixes e (by rw [defsQ_names]; exact he)
  have hn : ∀ u ∈ p.controls, u ∉ p.quantities.map Quantity.name := by
    intro u hu hq
    have := hp.names
    simp only [List.nodup_append, List.mem_append] at this
    exact this.1.2.2 u (Or.inl (Or.inr hu)) u hq rfl
  obtain ⟨ex, l0, h0, ac, m0⟩ := c
  simp only at e1 e3 e4 e2
  subst e1 e3 e4
  simp only [Con.rw, Option.map_some]
  rw [hq (sym u) (by
      intro s hs; simp only [Expr.free, List.mem_singleton] at hs; subst hs; exact hn s hu),
    hq lo fun s hs hh => hb lo (by simp) s hs (by simp only [List.mem_append]; exact Or.inl hh),
    hq hi fun s hs hh => hb hi (by simp) s hs (by simp only [List.mem_append]; exact Or.inl hh)]

theorem Pre.eps (hp : Stated p) : epsControls p1.path = epsControls p.path := by
  rw [h.path]
  have hc := h.con hp
  generalize p.path = l at hc
  induction l with
  | nil => rfl
  | cons c l ih =>
    have ih := ih fun c' hc' => hc c' (by simp [hc'])
    have h1 := hc c (by simp)
    simp only [epsControls] at ih
    rw [epsControls, epsControls, List.map_cons, List.filterMap_cons, List.filterMap_cons, ih]
    by_cases hm : c.method = .epstrig
    · rw [h1 hm]
    · have : (c.rw f).method = c.method := rfl
      obtain ⟨ex, l0, h0, ac, m0⟩ := c
      cases m0 <;> first | rfl | exact absurd rfl hm

/-- The problem after preprocessing can be regularised. -/
theorem Pre.reg (hp : Stated p) : Regularisable p1.controls p1 := by
  have hr := hp.reg
  rw [h.controls]
  refine ⟨h.sympified, ?_, ?_, ?_, ?_, ?_, hr.fresh⟩
  · intro c hc ht
    rw [h.initial, h.terminal, ← List.map_append] at hc
    obtain ⟨c0, h0, rfl⟩ := List.mem_map.1 hc
    rw [twoSided_rw] at ht
    exact hr.ends c0 h0 ht
  · intro c hc ht
    rw [h.path] at hc
    obtain ⟨c0, h0, rfl⟩ := List.mem_map.1 hc
    rw [twoSided_rw] at ht
    exact hr.known c0 h0 ht
  · intro c hc ht hm
    rw [h.initial, h.path, h.terminal, ← List.map_append, ← List.map_append] at hc
    obtain ⟨c0, h0, rfl⟩ := List.mem_map.1 hc
    rw [twoSided_rw] at ht
    rw [h.constants]
    exact hr.act c0 h0 ht hm
  · intro c hc hm
    rw [h.path] at hc
    obtain ⟨c0, h0, rfl⟩ := List.mem_map.1 hc
    rw [h.con hp c0 h0 hm, h.controls]
    exact hr.eps c0 h0 hm
  · rw [h.eps hp]; exact hr.once

end

/-- What the whole front end does. -/
structure FrontOk (p p3 q : Prob) (f f2 f3 : Expr → Expr) : Prop where
  switches : p3.switches = p.switches.map fun s =>
    ⟨s.name, s.functions, s.conditions, s.tol, f2 (f (rashsFunc s.tol s.functions s.conditions))⟩
  elim : Eliminates (defsS p3.switches) f3
  states : q.states = (p.states.map fun d => ⟨d.name, f3 (f2 (f d.eom))⟩) ++ [⟨p.ind, 1⟩]
  initial : q.initial = (p.initial.filter fun c => !c.twoSided).map fun c => c.rw (f3 ∘ f2 ∘ f)
  terminal : q.terminal = (p.terminal.filter fun c => !c.twoSided).map fun c => c.rw (f3 ∘ f2 ∘ f)
  costs : q.costInitial = f3 p3.costInitial ∧ q.costPath = f3 p3.costPath ∧ q.costTerminal = f3 p3.costTerminal
  controls : q.controls = p.controls.map fun u => if u ∈ epsControls p.path then trigName u else u
  ind : q.ind = "_" ++ p.ind
  sympified : q.sympified = true
  empty : q.costates = [] ∧ q.coparameters = [] ∧ q.parameters = [] ∧ q.quads = [] ∧ q.controlLaw = []
  good : ∀ e ∈ exprs p3, ∀ s ∈ (f3 e).free, Plain p s ∧ s ∉ definedNames p
  rates : ∀ d ∈ p.states, f2 (f d.eom) ∈ exprs p3
  cons : ∀ c ∈ p.initial ++ p.terminal, c.twoSided = false → f2 (f c.expr) ∈ exprs p3
  meaning : ∀ U ρ, Consistent (real U) (defsQ p.quantities) ρ → TrigEnv p U ρ → ∀ e,
    eval (real U) ρ (f2 (f e)) = eval (real U) ρ e
  cost : ∃ B : ℝ → ℝ → ℝ → ℝ → ℝ, Barriers B ∧
    ∀ U ρ, Consistent (real U) (defsQ p.quantities) ρ → TrigEnv p U ρ → ∀ loc, loc ≤ 2 →
      eval (real U) ρ (p3.costAt loc) = eval (real U) ρ (p.costAt loc) + penalties B U ρ (p.consAt loc)

theorem Pre.trigEnv {p p1 : Prob} {f : Expr → Expr} (h : Pre p p1 f) (hp : Stated p) {U : Name → Nat → ℝ → ℝ} {ρ : Env}
    (ht : TrigEnv p U ρ) : TrigEnv p1 U ρ := by
  intro c hc u lo hi hm he hl hh
  rw [h.path] at hc
  obtain ⟨c0, h0, rfl⟩ := List.mem_map.1 hc
  rw [h.con hp c0 h0 hm] at he hl hh
  exact ht c0 h0 u lo hi hm he hl hh

theorem penalty_pre {f : Expr → Expr} {B : ℝ → ℝ → ℝ → ℝ → ℝ} {U : Name → Nat → ℝ → ℝ} {ρ : Env} {c : Con}
    (hm : ∀ e, eval (real U) ρ (f e) = eval (real U) ρ e) (hc : c.method = .epstrig → c.rw f = c) :
    penalty B U ρ (c.rw f) = penalty B U ρ c := by
  by_cases he : c.method = .epstrig
  · rw [hc he]
  · obtain ⟨ex, l0, h0, ac, m0⟩ := c
    cases m0 with
    | epstrig => exact absurd rfl he
    | utm => cases l0 <;> cases h0 <;> cases ac <;> simp [penalty, Con.rw, hm]
    | other => rfl

theorem penalties_pre {f : Expr → Expr} {B : ℝ → ℝ → ℝ → ℝ → ℝ} {U : Name → Nat → ℝ → ℝ} {ρ : Env} {l : List Con}
    (hm : ∀ e, eval (real U) ρ (f e) = eval (real U) ρ e)
    (hc : ∀ c ∈ l, c.twoSided = true → c.method = .epstrig → c.rw f = c) :
    penalties B U ρ (l.map (Con.rw f)) = penalties B U ρ l := by
  rw [penalties, penalties, List.filter_map, List.map_map]
  have : (Con.twoSided ∘ Con.rw f) = Con.twoSided := by funext c; exact twoSided_rw f c
  rw [this]
  congr 1
  refine List.map_congr_left fun c hm' => ?_
  rw [List.mem_filter] at hm'
  exact penalty_pre hm (hc c hm'.1 hm'.2)

/-- `RASHS`, if there are switches. -/
theorem rashs_step {S : Sympy} {p3 q : Prob} (hs : p3.sympified = true) (ha : Acyclic (defsS p3.switches))
    (h : runSteps S (if p3.switches.length > 0 then [.rashs] else []) p3 = .ok q) :
    ∃ f, q.dropTables = p3.dropTables.mapEqs f ∧ Eliminates (defsS p3.switches) f := by
  split at h
  · obtain ⟨p', f, h1, h2, h3⟩ := C26_eliminated p3 hs ha
    rw [runSteps_cons] at h
    obtain ⟨r, hr, h⟩ := bind_ok h
    cases h
    have hr : rashs p3 = .ok q := hr
    rw [h1] at hr
    cases hr
    exact ⟨f, h2, h3⟩
  · cases h
    have hn : p3.switches = [] := by
      apply List.eq_nil_of_length_eq_zero; omega
    refine ⟨id, (mapEqs_id _).symm, ?_⟩
    rw [hn]
    exact ⟨by simp [defsS], fun _ _ h => Or.inl h, fun _ _ _ _ => rfl, fun _ _ => rfl, fun _ _ _ h => h⟩

theorem filter_none {l : List Con} (h : ∀ c ∈ l, c.twoSided = false) : (l.filter fun c => !c.twoSided) = l := by
  rw [List.filter_eq_self]
  intro c hc
  simp [h c hc]

/-- The front end, with any property `P` of the symbols that the user uses. -/
theorem front_with {S : Sympy} {p q : Prob} {P : Name → Prop} (hp : Stated p) (hP : ∀ e ∈ allExprs p, ∀ s ∈ e.free, P s)
    (hPc : ∀ s ∈ p.constants, P s) (hPt : ∀ u ∈ p.controls, P (trigName u)) (h : primal S p = .ok q) :
    ∃ p3 f f2 f3, FrontOk p p3 q f f2 f3 ∧ ∀ e ∈ exprs p3, ∀ s ∈ (f3 e).free, P s := by
  rw [primal] at h
  obtain ⟨p1, h1, h⟩ := bind_ok h
  obtain ⟨ineq, hineq, h⟩ := bind_ok h
  obtain ⟨f, hf⟩ := preprocess_ok hp.acyclic h1
  rw [runSteps_cons] at h
  obtain ⟨p2, h2, h⟩ := bind_ok h
  have h2 : momentumShift p1 = .ok p2 := h2
  rw [runSteps_append] at h
  obtain ⟨p3, h3, h⟩ := bind_ok h
  obtain ⟨s1, s2, s3⟩ := momentumShift_ok h2
  have hr1 := hf.reg hp
  have e_initial : p2.initial = p1.initial := by have := congrArg Prob.initial s3; exact this
  have e_path : p2.path = p1.path := by have := congrArg Prob.path s3; exact this
  have e_terminal : p2.terminal = p1.terminal := by have := congrArg Prob.terminal s3; exact this
  have e_controls : p2.controls = p1.controls := by have := congrArg Prob.controls s3; exact this
  have e_constants : p2.constants = p1.constants := by have := congrArg Prob.constants s3; exact this
  have e_symp : p2.sympified = p1.sympified := by have := congrArg Prob.sympified s3; exact this
  have e_switches : p2.switches = p1.switches := by have := congrArg Prob.switches s3; exact this
  have e_ci : p2.costInitial = p1.costInitial := by have := congrArg Prob.costInitial s3; exact this
  have e_cp : p2.costPath = p1.costPath := by have := congrArg Prob.costPath s3; exact this
  have e_ct : p2.costTerminal = p1.costTerminal := by have := congrArg Prob.costTerminal s3; exact this
  have hr2 : Regularisable p2.controls p2 := by
    rw [e_controls]
    refine ⟨by rw [e_symp]; exact hr1.sympified, ?_, ?_, ?_, ?_, ?_, hr1.fresh⟩
    · rw [e_initial, e_terminal]; exact hr1.ends
    · rw [e_path]; exact hr1.known
    · rw [e_initial, e_path, e_terminal, e_constants]; exact hr1.act
    · rw [e_path, e_controls]; exact hr1.eps
    · rw [e_path]; exact hr1.once
  have hnd : p2.controls.Nodup := by
    rw [e_controls, hf.controls]
    have := hp.names
    simp only [List.nodup_append] at this
    exact this.1.1.1.2.1
  obtain ⟨steps, p3', g1, g2, g3⟩ := C24_regularised_partial S p2 hr2 hnd
  rw [e_initial, e_path, e_terminal, hineq] at g1
  cases g1
  rw [h3] at g2
  cases g2
  have hE0 : ∀ s ∈ epsControls p2.path, s ∈ p2.controls := by
    intro s hs
    obtain ⟨c, hc, hm, he⟩ := mem_epsControls.1 hs
    obtain ⟨u, _, _, _, e1, hu, -⟩ := hr2.eps c hc hm
    rw [e1] at he; cases he; exact hu
  have hE2 : epsControls p2.path = epsControls p.path := by rw [e_path, hf.eps hp]
  -- symbols
  have hdist := hp.names
  simp only [List.nodup_append, List.mem_append, List.mem_singleton] at hdist
  have hqn : ∀ {s}, s ∉ (defsQ p.quantities).map Prod.fst ↔ s ∉ p.quantities.map Quantity.name := by
    intro s; rw [defsQ_names]
  have hallp : ∀ e ∈ allExprs p, ∀ s ∈ (f e).free, (Plain p s ∧ P s) ∧ s ∉ p.quantities.map Quantity.name := by
    intro e he s hs
    refine ⟨?_, hqn.1 (hf.elim.gone e s hs)⟩
    rcases hf.elim.fresh e s hs with h4 | ⟨d, hd, h4⟩
    · exact ⟨hp.free e he s h4, hP e he s h4⟩
    · obtain ⟨d0, hd0, rfl⟩ := List.mem_map.1 hd
      have hm0 : d0.expr ∈ allExprs p := by
        simp only [allExprs, List.mem_append]; exact Or.inl (Or.inr (List.mem_map.2 ⟨d0, hd0, rfl⟩))
      exact ⟨hp.free d0.expr hm0 s h4, hP d0.expr hm0 s h4⟩
  have hsw : ∀ w ∈ p.switches, ∀ s ∈ (f (rashsFunc w.tol w.functions w.conditions)).free,
      ((Plain p s ∧ P s) ∧ s ∉ p.quantities.map Quantity.name) ∧ s ∉ p.switches.map Switch.name := by
    intro w hw s hs
    refine ⟨⟨?_, hqn.1 (hf.elim.gone _ s hs)⟩, ?_⟩
    · rcases hf.elim.fresh _ s hs with h4 | ⟨d, hd, h4⟩
      · obtain ⟨e, he, h4⟩ := free_rashsFunc h4
        have hm0 : e ∈ allExprs p := by
          simp only [allExprs, List.mem_append, List.mem_flatMap]; exact Or.inr ⟨w, hw, he⟩
        exact ⟨hp.free e hm0 s h4, hP e hm0 s h4⟩
      · obtain ⟨d0, hd0, rfl⟩ := List.mem_map.1 hd
        have hm0 : d0.expr ∈ allExprs p := by
          simp only [allExprs, List.mem_append]; exact Or.inl (Or.inr (List.mem_map.2 ⟨d0, hd0, rfl⟩))
        exact ⟨hp.free d0.expr hm0 s h4, hP d0.expr hm0 s h4⟩
    · rcases hf.elim.fresh _ s hs with h4 | ⟨d, hd, h4⟩
      · obtain ⟨e, he, h4⟩ := free_rashsFunc h4
        exact hp.flat.2 w hw e he s h4
      · obtain ⟨d0, hd0, rfl⟩ := List.mem_map.1 hd
        exact hp.flat.1 d0 hd0 s h4
  have htracks2 : Tracks (fun s => (Plain p s ∧ P s) ∧ s ∉ p.quantities.map Quantity.name)
      (fun s => s ∉ p.switches.map Switch.name) (epsControls p2.path) p2 := by
    refine ⟨?_, ?_, ?_, ?_⟩
    · intro e he s hs
      refine ⟨?_, id⟩
      simp only [exprs, List.mem_append, List.mem_cons, List.not_mem_nil, or_false] at he
      rcases he with ((he | he) | he | he | he) | he
      · rw [s1] at he
        simp only [List.map_append, List.mem_append, List.map_cons, List.map_nil, List.mem_singleton] at he
        rcases he with he | rfl
        · rw [hf.states, List.map_map] at he
          obtain ⟨d, hd, rfl⟩ := List.mem_map.1 he
          exact hallp d.eom (by simp only [allExprs, List.mem_append]; exact Or.inl (Or.inl (Or.inl (Or.inl (List.mem_map.2 ⟨d, hd, rfl⟩))))) s hs
        · cases hs
      · rw [e_initial, e_path, e_terminal, hf.initial, hf.path, hf.terminal, ← List.map_append, ← List.map_append] at he
        obtain ⟨c', hc', he⟩ := List.mem_flatMap.1 he
        obtain ⟨c, hc, rfl⟩ := List.mem_map.1 hc'
        rw [parts_rw] at he
        obtain ⟨e0, he0, rfl⟩ := List.mem_map.1 he
        refine hallp e0 ?_ s hs
        simp only [allExprs, List.mem_append, List.mem_flatMap]
        exact Or.inl (Or.inl (Or.inl (Or.inr ⟨c, by simpa only [List.mem_append] using hc, Or.inl he0⟩)))
      · rw [he, e_ci, hf.costInitial] at hs
        exact hallp _ (by simp [allExprs]) s hs
      · rw [he, e_cp, hf.costPath] at hs
        exact hallp _ (by simp [allExprs]) s hs
      · rw [he, e_ct, hf.costTerminal] at hs
        exact hallp _ (by simp [allExprs]) s hs
      · rw [e_switches, hf.switches, List.map_map] at he
        obtain ⟨w, hw, rfl⟩ := List.mem_map.1 he
        exact (hsw w hw s hs).1
    · intro w hw x hx
      rw [e_switches, hf.switches] at hw
      obtain ⟨w0, hw0, rfl⟩ := List.mem_map.1 hw
      exact (hsw w0 hw0 x hx).2
    · intro c hc hm e he x hx hh
      rw [e_path, hf.path] at hc
      obtain ⟨c0, h0, rfl⟩ := List.mem_map.1 hc
      rw [hf.con hp c0 h0 hm] at he
      refine hp.bounds c0 h0 hm e ?_ x hx (by simp only [List.mem_append]; exact Or.inr hh)
      rcases he with he | he <;> simp [he]
    · intro c hc hm a ha x hx
      rw [e_path, hf.path] at hc
      obtain ⟨c0, h0, rfl⟩ := List.mem_map.1 hc
      have ha : c0.activator = some a := ha
      have hm0 : a ∈ allExprs p := by
        simp only [allExprs, List.mem_append, List.mem_flatMap]
        exact Or.inl (Or.inl (Or.inl (Or.inr ⟨c0, Or.inl (Or.inr h0), Or.inr (by simp [ha])⟩)))
      exact ⟨⟨hp.free a hm0 x hx, hP a hm0 x hx⟩, fun hh => hp.bounds c0 h0 hm a (by simp [ha]) x hx (by simp only [List.mem_append]; exact Or.inl hh)⟩
  have htracks := tracks_run (S := S) hnd hE0 (by
      intro k hk
      rw [e_constants, hf.constants] at hk
      refine ⟨⟨⟨hp.plain k (by simp [hk]), hPc k hk⟩, fun hh => hdist.1.2.2 k (Or.inr hk) k hh rfl⟩, fun hh => ?_⟩
      have := hE0 k hh
      rw [e_controls, hf.controls] at this
      exact hdist.1.1.2.2 k (Or.inr this) k hk rfl) (by
      intro u hu
      rw [e_controls, hf.controls] at hu
      obtain ⟨t1, t2⟩ := hp.trig u hu
      simp only [List.mem_append, not_or] at t2
      exact ⟨⟨⟨t1, hPt u hu⟩, t2.1.2⟩, t2.2⟩) ineq p2 p3 id (ineqSteps_mem hineq) (RegInv.refl hr2) htracks2 h3
  -- the regularised problem
  obtain ⟨f2, r1, r2, r3, r4⟩ := g3.rest
  have hno : ∀ c ∈ p3.initial ++ p3.path ++ p3.terminal, c.twoSided = false := by
    intro c hc
    have := g3.none_left
    rw [Prob.inequalities, List.filter_eq_nil_iff] at this
    simpa using this c hc
  have c_states : p3.states = p2.states.map fun d => ⟨d.name, f2 d.eom⟩ := by have := congrArg Prob.states r1; exact this
  have c_switches : p3.switches = p2.switches.map fun s => ⟨s.name, s.functions, s.conditions, s.tol, f2 s.symFunc⟩ := by
    have := congrArg Prob.switches r1; exact this
  have c_ind : p3.ind = p2.ind := by have := congrArg Prob.ind r1; exact this
  have c_symp : p3.sympified = p2.sympified := by have := congrArg Prob.sympified r1; exact this
  have c_initial : p3.initial = (p2.initial.filter fun c => !c.twoSided).map (Con.rw f2) := by
    have h4 : (p3.initial.filter fun c => !c.twoSided) = ((p2.initial.map (Con.rw f2)).filter fun c => !c.twoSided) := by
      have := congrArg Prob.initial r1; exact this
    rw [filter_none fun c hc => hno c (by simp [hc]), filter_rw] at h4
    exact h4
  have c_terminal : p3.terminal = (p2.terminal.filter fun c => !c.twoSided).map (Con.rw f2) := by
    have h4 : (p3.terminal.filter fun c => !c.twoSided) = ((p2.terminal.map (Con.rw f2)).filter fun c => !c.twoSided) := by
      have := congrArg Prob.terminal r1; exact this
    rw [filter_none fun c hc => hno c (by simp [hc]), filter_rw] at h4
    exact h4
  have c_costates : p3.costates = p2.costates.map fun d => ⟨d.name, f2 d.eom⟩ := by
    have := congrArg Prob.costates r1; exact this
  have c_coparameters : p3.coparameters = p2.coparameters.map fun d => ⟨d.name, f2 d.eom⟩ := by
    have := congrArg Prob.coparameters r1; exact this
  have c_quads : p3.quads = p2.quads.map fun d => ⟨d.name, f2 d.eom⟩ := by have := congrArg Prob.quads r1; exact this
  have c_parameters : p3.parameters = p2.parameters := by have := congrArg Prob.parameters r1; exact this
  have c_law : p3.controlLaw = p2.controlLaw := by have := congrArg Prob.controlLaw r1; exact this
  have d_costates : p2.costates = [] := by
    have h4 : p2.costates = p1.costates := by have := congrArg Prob.costates s3; exact this
    have h5 : p1.costates = p.costates.map fun d => ⟨d.name, f d.eom⟩ := by have := congrArg Prob.costates hf.eqs; exact this
    rw [h4, h5, hp.costates]; rfl
  have d_coparameters : p2.coparameters = [] := by
    have h4 : p2.coparameters = p1.coparameters := by have := congrArg Prob.coparameters s3; exact this
    have h5 : p1.coparameters = p.coparameters.map fun d => ⟨d.name, f d.eom⟩ := by
      have := congrArg Prob.coparameters hf.eqs; exact this
    rw [h4, h5, hp.coparameters]; rfl
  have d_quads : p2.quads = [] := by
    have h4 : p2.quads = p1.quads := by have := congrArg Prob.quads s3; exact this
    have h5 : p1.quads = p.quads.map fun d => ⟨d.name, f d.eom⟩ := by have := congrArg Prob.quads hf.eqs; exact this
    rw [h4, h5, hp.quads]; rfl
  have d_parameters : p2.parameters = [] := by
    have h4 : p2.parameters = p1.parameters := by have := congrArg Prob.parameters s3; exact this
    have h5 : p1.parameters = p.parameters := by have := congrArg Prob.parameters hf.eqs; exact this
    rw [h4, h5, hp.parameters]
  have d_law : p2.controlLaw = [] := by
    have h4 : p2.controlLaw = p1.controlLaw := by have := congrArg Prob.controlLaw s3; exact this
    have h5 : p1.controlLaw = p.controlLaw := by have := congrArg Prob.controlLaw hf.eqs; exact this
    rw [h4, h5, hp.law]
  have hsw3 : p3.switches = p.switches.map fun s =>
      ⟨s.name, s.functions, s.conditions, s.tol, f2 (f (rashsFunc s.tol s.functions s.conditions))⟩ := by
    rw [c_switches, e_switches, hf.switches, List.map_map]
    rfl
  have hswn : (defsS p3.switches).map Prod.fst = p.switches.map Switch.name := by
    rw [defsS_names, hsw3, List.map_map]
    rfl
  have hlen : p1.switches.length = p3.switches.length := by rw [hsw3, hf.switches, List.length_map, List.length_map]
  rw [hlen] at h
  obtain ⟨f3, q1, q2⟩ := rashs_step (by rw [c_symp, e_symp]; exact hf.sympified) ⟨fun _ => 0, by
    intro d hd s hs hh
    rw [hswn] at hh
    obtain ⟨w, hw, rfl⟩ := List.mem_map.1 hd
    exact absurd hh (htracks.switches w hw s hs)⟩ h
  have hEp3 : epsControls p3.path = [] := by
    rw [List.eq_nil_iff_forall_not_mem]
    intro s hs
    have h4 : (p3.path.filter fun c => !c.twoSided) = ((p2.path.map (Con.rw f2)).filter fun c => !c.twoSided) := by
      have := congrArg Prob.path r1; exact this
    rw [filter_none fun c hc => hno c (by simp [hc]), filter_rw] at h4
    rw [h4, e_path, hf.path] at hs
    obtain ⟨c, hc, -, -⟩ := mem_epsControls.1 hs
    obtain ⟨c1, hc1, -⟩ := List.mem_map.1 hc
    rw [List.mem_filter] at hc1
    obtain ⟨c2, hc2, rfl⟩ := List.mem_map.1 hc1.1
    have := hp.inside c2 hc2
    rw [twoSided_rw, this] at hc1
    cases hc1.2
  have hgood : ∀ e ∈ exprs p3, ∀ s ∈ e.free, ((Plain p s ∧ P s) ∧ s ∉ p.quantities.map Quantity.name) ∧ s ∉ epsControls p.path := by
    intro e he s hs
    have := htracks.all e he s hs
    rw [hE2, hEp3] at this
    exact ⟨this.1, fun hh => by cases this.2 hh⟩
  have x_states : q.states = p3.states.map fun d => ⟨d.name, f3 d.eom⟩ := by have := congrArg Prob.states q1; exact this
  have x_initial : q.initial = p3.initial.map (Con.rw f3) := by have := congrArg Prob.initial q1; exact this
  have x_terminal : q.terminal = p3.terminal.map (Con.rw f3) := by have := congrArg Prob.terminal q1; exact this
  have x_ci : q.costInitial = f3 p3.costInitial := by have := congrArg Prob.costInitial q1; exact this
  have x_cp : q.costPath = f3 p3.costPath := by have := congrArg Prob.costPath q1; exact this
  have x_ct : q.costTerminal = f3 p3.costTerminal := by have := congrArg Prob.costTerminal q1; exact this
  have x_controls : q.controls = p3.controls := by have := congrArg Prob.controls q1; exact this
  have x_ind : q.ind = p3.ind := by have := congrArg Prob.ind q1; exact this
  have x_symp : q.sympified = p3.sympified := by have := congrArg Prob.sympified q1; exact this
  have x_costates : q.costates = p3.costates.map fun d => ⟨d.name, f3 d.eom⟩ := by
    have := congrArg Prob.costates q1; exact this
  have x_coparameters : q.coparameters = p3.coparameters.map fun d => ⟨d.name, f3 d.eom⟩ := by
    have := congrArg Prob.coparameters q1; exact this
  have x_quads : q.quads = p3.quads.map fun d => ⟨d.name, f3 d.eom⟩ := by have := congrArg Prob.quads q1; exact this
  have x_parameters : q.parameters = p3.parameters := by have := congrArg Prob.parameters q1; exact this
  have x_law : q.controlLaw = p3.controlLaw := by have := congrArg Prob.controlLaw q1; exact this
  have hone : ∀ s ∈ (1 : Expr).free, False := by intro s hs; cases hs
  have hfilt : ∀ l : List Con, ((((l.map (Con.rw f)).filter fun c => !c.twoSided).map (Con.rw f2)).map (Con.rw f3)) =
      (l.filter fun c => !c.twoSided).map fun c => c.rw (f3 ∘ f2 ∘ f) := by
    intro l
    rw [filter_rw, List.map_map, List.map_map]
    refine List.map_congr_left fun c _ => ?_
    simp only [Function.comp_apply, Con.rw, Option.map_map]
  obtain ⟨B, hB, hcost⟩ := g3.cost
  have hcons : ∀ U ρ, Consistent (real U) (defsQ p.quantities) ρ → TrigEnv p U ρ → TrigEnv p2 U ρ := by
    intro U ρ _ ht
    have := hf.trigEnv hp ht
    rw [TrigEnv, ← e_path] at this
    exact this
  have hmain : ∀ e ∈ exprs p3, ∀ s ∈ (f3 e).free,
      ((Plain p s ∧ P s) ∧ s ∉ p.quantities.map Quantity.name) ∧ s ∉ epsControls p.path := by
    intro e he s hs
    rcases q2.fresh e s hs with h4 | ⟨d, hd, h4⟩
    · exact hgood e he s h4
    · obtain ⟨w, hw, rfl⟩ := List.mem_map.1 hd
      exact hgood w.symFunc (by simp only [exprs, List.mem_append]; exact Or.inr (List.mem_map.2 ⟨w, hw, rfl⟩)) s h4
  refine ⟨p3, f, f2, f3, ⟨hsw3, q2, ?_, ?_, ?_, ⟨x_ci, x_cp, x_ct⟩, ?_, ?_, ?_, ?_, ?_, ?_, ?_, ?_, ⟨B, hB, ?_⟩⟩,
    fun e he s hs => (hmain e he s hs).1.1.2⟩
  · rw [x_states, c_states, s1, hf.states, List.map_append, List.map_append, List.map_map, List.map_map, hf.ind]
    congr 1
    simp only [List.map_cons, List.map_nil]
    rw [r4 1 fun s hs => (hone s hs).elim, q2.fixes 1 fun s hs => (hone s hs).elim]
  · rw [x_initial, c_initial, e_initial, hf.initial, hfilt]
  · rw [x_terminal, c_terminal, e_terminal, hf.terminal, hfilt]
  · rw [x_controls, g3.controls, hE2, e_controls, hf.controls]
  · rw [x_ind, c_ind, s2, hf.ind]
  · rw [x_symp, c_symp, e_symp]; exact hf.sympified
  · rw [x_costates, x_coparameters, x_quads, x_parameters, x_law, c_costates, c_coparameters, c_quads, c_parameters, c_law,
      d_costates, d_coparameters, d_quads, d_parameters, d_law]
    exact ⟨rfl, rfl, rfl, rfl, rfl⟩
  · intro e he s hs
    have hns := q2.gone e s hs
    rw [hswn] at hns
    obtain ⟨⟨⟨hpl, -⟩, hqq⟩, hee⟩ := hmain e he s hs
    refine ⟨hpl, ?_⟩
    simp only [definedNames, List.mem_append, not_or]
    exact ⟨⟨hqq, hns⟩, hee⟩
  · intro d hd
    simp only [exprs, List.mem_append]
    refine Or.inl (Or.inl (Or.inl ?_))
    rw [c_states, s1, hf.states]
    exact List.mem_map.2 ⟨⟨d.name, f2 (f d.eom)⟩, List.mem_map.2 ⟨⟨d.name, f d.eom⟩,
      List.mem_append_left _ (List.mem_map.2 ⟨d, hd, rfl⟩), rfl⟩, rfl⟩
  · intro c hc ht
    refine mem_exprs_con (c := (c.rw f).rw f2) ?_ (by simp [parts, Con.rw])
    have hfl : ∀ l : List Con, c ∈ l → (c.rw f).rw f2 ∈ ((l.map (Con.rw f)).filter fun c => !c.twoSided).map (Con.rw f2) := by
      intro l hl
      refine List.mem_map.2 ⟨c.rw f, List.mem_filter.2 ⟨List.mem_map.2 ⟨c, hl, rfl⟩, ?_⟩, rfl⟩
      rw [twoSided_rw, ht]; rfl
    simp only [List.mem_append] at hc ⊢
    rcases hc with hc | hc
    · left; left
      rw [c_initial, e_initial, hf.initial]
      exact hfl _ hc
    · right
      rw [c_terminal, e_terminal, hf.terminal]
      exact hfl _ hc
  · intro U ρ hc ht e
    rw [r2 U ρ (hcons U ρ hc ht), hf.elim.meaning (real U) ρ hc]
  · intro U ρ hc ht loc hl
    rw [hcost U ρ (hcons U ρ hc ht) loc hl]
    have hm := hf.elim.meaning (real U) ρ hc
    have hends : ∀ c ∈ p.initial ++ p.terminal, c.twoSided = true → c.method = .epstrig → c.rw f = c := by
      intro c hc ht hm
      have := hp.reg.ends c hc ht
      rw [hm] at this
      cases this
    rcases loc with _ | _ | _ | loc
    · simp only [Prob.costAt, Prob.consAt]
      rw [e_ci, hf.costInitial, hm, e_initial, hf.initial, penalties_pre hm fun c hc => hends c (by simp [hc])]
    · simp only [Prob.costAt, Prob.consAt]
      rw [e_cp, hf.costPath, hm, e_path, hf.path, penalties_pre hm fun c hc _ => hf.con hp c hc]
    · simp only [Prob.costAt, Prob.consAt]
      rw [e_ct, hf.costTerminal, hm, e_terminal, hf.terminal, penalties_pre hm fun c hc => hends c (by simp [hc])]
    · omega

theorem front {S : Sympy} {p q : Prob} (hp : Stated p) (h : primal S p = .ok q) :
    ∃ p3 f f2 f3, FrontOk p p3 q f f2 f3 := by
  obtain ⟨p3, f, f2, f3, hf, -⟩ := front_with (P := fun _ => True) hp (fun _ _ _ _ => trivial) (fun _ _ => trivial)
    (fun _ _ => trivial) h
  exact ⟨p3, f, f2, f3, hf⟩

end Beluga.Opt
