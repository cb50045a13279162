import Verif.Scope.Forward
import Verif.Numeric.Units
import Verif.Extremal.Props

/-! # The compiled functions of a scoped problem return values -/

namespace Beluga.Scope

open Beluga.Sym Beluga.Sym.Expr Beluga.Num Beluga.Opt

section
variable {K : Type} [Field K]

/-- As many values as names. -/
abbrev Sizes (args : List (List Name)) (vals : List (List K)) : Prop := List.Forall₂ (fun a v => a.length = v.length) args vals

omit [Field K] in
theorem lookup_append_some {s : Name} {a b : List (Name × K)} (h : (a.lookup s).isSome ∨ (b.lookup s).isSome) :
    ((a ++ b).lookup s).isSome := by
  rw [List.lookup_append]
  cases ha : a.lookup s with
  | some x => rfl
  | none =>
    rw [ha] at h
    simpa using h

omit [Field K] in
theorem lookup_zip_some {s : Name} : ∀ {ns : List Name} {vs : List K}, ns.length = vs.length → s ∈ ns → ((ns.zip vs).lookup s).isSome
  | [], _, _, h => by cases h
  | n :: ns, [], hl, _ => by cases hl
  | n :: ns, v :: vs, hl, h => by
    rw [List.zip_cons_cons, List.lookup_cons]
    by_cases hx : s = n
    · subst hx; simp
    · rw [show (s == n) = false by simpa using hx]
      exact lookup_zip_some (by simpa using hl) ((List.mem_cons.1 h).resolve_left hx)

omit [Field K] in
theorem bindArgs_total : ∀ {args : List (List Name)} {vals : List (List K)}, Sizes args vals →
    ∃ env, bindArgs args vals = .ok env ∧ ∀ s ∈ args.flatten, (env.lookup s).isSome
  | _, _, .nil => ⟨[], rfl, by simp⟩
  | ns :: args, vs :: vals, .cons h hs => by
    obtain ⟨env, he, hm⟩ := bindArgs_total hs
    refine ⟨ns.zip vs ++ env, ?_, ?_⟩
    · rw [bindArgs, if_neg (not_not.2 h), he]
      rfl
    · intro s hs
      rw [List.flatten_cons, List.mem_append] at hs
      exact lookup_append_some (hs.imp (lookup_zip_some h) (hm s))

theorem lambdify_total (I : Interp K) {args : List (List Name)} {vals : List (List K)} (h : Sizes args vals) {e : Expr}
    (he : Uses e args.flatten) : ∃ v, lambdify I args e vals = .ok v := by
  obtain ⟨env, he', hm⟩ := bindArgs_total h
  rw [lambdify, he']
  have hall : (e.free.all fun s => (env.lookup s).isSome) = true := List.all_eq_true.2 fun s hs => hm s (he s hs)
  exact ⟨_, if_pos hall⟩

theorem mapM_total {α β : Type} {f : α → Py β} : ∀ {l : List α}, (∀ x ∈ l, ∃ v, f x = .ok v) → ∃ m, l.mapM f = .ok m
  | [], _ => ⟨[], rfl⟩
  | x :: l, h => by
    obtain ⟨v, hv⟩ := h x (by simp)
    obtain ⟨m, hm⟩ := mapM_total fun y hy => h y (List.mem_cons_of_mem _ hy)
    refine ⟨v :: m, ?_⟩
    rw [List.mapM_cons, hv, hm]
    rfl

theorem mapM_length {α β : Type} {f : α → Py β} {l : List α} {m : List β} (h : l.mapM f = .ok m) : m.length = l.length :=
  (mapM_pairs h).length_eq.symm

theorem lambdifyL_total (I : Interp K) {args : List (List Name)} {vals : List (List K)} (h : Sizes args vals) {es : List Expr}
    (he : ∀ e ∈ es, Uses e args.flatten) : ∃ v, lambdifyL I args es vals = .ok v ∧ v.length = es.length := by
  obtain ⟨v, hv⟩ := mapM_total fun e hm => lambdify_total I h (he e hm)
  exact ⟨v, hv, mapM_length hv⟩

theorem lambdifyM_total (I : Interp K) {args : List (List Name)} {vals : List (List K)} (h : Sizes args vals) {es : List (List Expr)}
    (he : ∀ r ∈ es, ∀ e ∈ r, Uses e args.flatten) :
    ∃ v, lambdifyM I args es vals = .ok v ∧ List.Forall₂ (fun r x => x.length = r.length) es v := by
  obtain ⟨v, hv⟩ := mapM_total fun r hm => (lambdifyL_total I h (he r hm)).imp fun _ h => h.1
  refine ⟨v, hv, ?_⟩
  have := mapM_pairs hv
  refine this.imp fun r x hx => ?_
  exact mapM_length hx

end

section
variable {K : Type} [Field K] [LinearOrder K]

omit [Field K] in
theorem select_some {V : Type} (f : V → Option K) {l : List V} (h : l ≠ []) : ∃ u ∈ l, select f l = some u := by
  match l, h with
  | [u], _ => exact ⟨u, by simp, rfl⟩
  | u :: v :: rest, _ =>
    have h1 : select f (u :: v :: rest) = some (selectGo f (v :: rest) u (f u)) := rfl
    exact ⟨_, select_mem f _ h1, h1⟩

/-- The reduced problem: nothing but states, controls, parameters, constants, and at the ends quadratures and multipliers. -/
structure Closed (q : Prob) : Prop where
  rates : ∀ d ∈ q.states ++ q.quads, Uses d.eom (fixedNames q ++ q.controls)
  bcs : ∀ c ∈ q.initial ++ q.terminal, Uses c.expr (fixedNames q ++ q.controls ++ qds q ++ q.constraintParams)
  ham : ∃ H, q.hamiltonian = some H ∧ Uses H (fixedNames q ++ q.controls)
  law : ∀ o ∈ q.controlLaw, o.length = q.controls.length ∧ ∀ e ∈ o, Uses e (fixedNames q)
  chosen : q.controlLaw ≠ [] ∨ q.controls = []

theorem Scoped.closed {q : Prob} (h : Scoped q) (h1 : q.costates = []) (h2 : q.coparameters = []) (h3 : q.adjoints = [])
    (h4 : q.controlLaw ≠ [] ∨ q.controls = []) : Closed q := by
  have e : allNames q = fixedNames q := by simp [allNames, fixedNames, h1]
  obtain ⟨r, b, hm, l⟩ := h
  rw [e] at r b hm l
  rw [h1, h2, List.append_nil, List.append_nil] at r
  rw [h2, h3, List.map_nil, List.append_nil, List.append_nil] at b
  exact ⟨r, b, hm, l, h4⟩

variable {q : Prob} {y pr k : List K}

theorem computeU_total (I : Interp K) (hq : Closed q) (hy : y.length = q.states.length) (hp : pr.length = q.parameters.length)
    (hk : k.length = q.constants.length) :
    (q.controlLaw = [] ∧ computeU I q y pr k = .ok none) ∨ ∃ u, computeU I q y pr k = .ok (some u) ∧ u.length = q.controls.length := by
  obtain ⟨H, hH, hU⟩ := hq.ham
  have hs : Sizes [sts q, q.parameters, q.constants] [y, pr, k] :=
    .cons (by simp [sts, hy]) (.cons hp.symm (.cons hk.symm .nil))
  have hf : ∀ e, Uses e (fixedNames q) → Uses e [sts q, q.parameters, q.constants].flatten := by
    intro e he s h
    have := he s h
    simpa [fixedNames] using this
  rw [computeU]
  match hl : q.controlLaw with
  | [] => exact Or.inl ⟨rfl, rfl⟩
  | [o] =>
    obtain ⟨v, hv, hlen⟩ := lambdifyL_total I hs (es := o) fun e he => hf e ((hq.law o (by simp [hl])).2 e he)
    refine Or.inr ⟨v, ?_, by rw [hlen, (hq.law o (by simp [hl])).1]⟩
    simp only [hv]
    rfl
  | o1 :: o2 :: rest =>
    obtain ⟨us, hus, hlen⟩ := lambdifyM_total I hs (es := o1 :: o2 :: rest)
      fun o ho e he => hf e ((hq.law o (by rw [hl]; exact ho)).2 e he)
    have hul : ∀ u ∈ us, u.length = q.controls.length := by
      intro u hu
      obtain ⟨o, ho, h1⟩ := forall₂_right hlen u hu
      rw [h1, (hq.law o (by rw [hl]; exact ho)).1]
    obtain ⟨hs', hhs⟩ := mapM_total (f := fun u => (do
        let h ← lambdify I [sts q, q.controls, q.parameters, q.constants] H [y, u, pr, k]
        .ok (u, h) : Py (List K × K))) (l := us) (by
      intro u hu
      obtain ⟨v, hv⟩ := lambdify_total I (args := [sts q, q.controls, q.parameters, q.constants]) (vals := [y, u, pr, k])
        (.cons (by simp [sts, hy]) (.cons (hul u hu).symm (.cons hp.symm (.cons hk.symm .nil)))) (e := H) (by
          intro s h
          have := hU s h
          simp only [fixedNames, List.mem_append, List.flatten_cons, List.flatten_nil, List.append_nil] at this ⊢
          tauto)
      rw [hv]
      exact ⟨_, rfl⟩)
    have hne : hs' ≠ [] := by
      have h1 := mapM_length hhs
      have h2 := hlen.length_eq
      rintro rfl
      simp at h1 h2
      omega
    obtain ⟨w, hw, hsel⟩ := select_some (K := K) (fun uh : List K × K => some uh.2) hne
    refine Or.inr ⟨w.1, ?_, ?_⟩
    · simp only [hus]
      change (match q.hamiltonian with
        | none => _
        | some H => _) = _
      rw [hH]
      dsimp only
      rw [hhs]
      change Except.ok (Option.map Prod.fst (select _ hs')) = _
      rw [hsel]
      rfl
    · obtain ⟨u, hu, h1⟩ := forall₂_right (mapM_pairs hhs) w hw
      obtain ⟨h, -, h2⟩ := bind_ok h1
      cases h2
      exact hul u hu

theorem atPoint_total (I : Interp K) (hq : Closed q) (hy : y.length = q.states.length) (hp : pr.length = q.parameters.length)
    (hk : k.length = q.constants.length) {es : List Expr} (he : ∀ e ∈ es, Uses e (fixedNames q ++ q.controls)) :
    ∃ v, atPoint I q es y pr k = .ok v ∧ v.length = es.length := by
  rw [atPoint]
  rcases computeU_total I hq hy hp hk with ⟨hl, h⟩ | ⟨u, h, hu⟩
  · rw [h]
    have hc := hq.chosen.resolve_left (not_not.2 hl)
    refine lambdifyL_total I (args := [sts q, q.parameters, q.constants]) (.cons (by simp [sts, hy]) (.cons hp.symm (.cons hk.symm .nil))) ?_
    intro e hm s hs
    have := he e hm s hs
    rw [hc] at this
    simpa [fixedNames] using this
  · rw [h]
    refine lambdifyL_total I (args := [sts q, q.controls, q.parameters, q.constants])
      (.cons (by simp [sts, hy]) (.cons hu.symm (.cons hp.symm (.cons hk.symm .nil)))) ?_
    intro e hm s hs
    have := he e hm s hs
    simp only [fixedNames, List.mem_append, List.flatten_cons, List.flatten_nil, List.append_nil] at this ⊢
    tauto

theorem bcEnd_total (I : Interp K) (hq : Closed q) (hy : y.length = q.states.length) (hp : pr.length = q.parameters.length)
    (hk : k.length = q.constants.length) {x pc : List K} (hx : x.length = q.quads.length) (hpc : pc.length = q.constraintParams.length)
    {cs : List Con} (hc : ∀ c ∈ cs, c ∈ q.initial ++ q.terminal) : ∃ v, bcEnd I q cs y x pr pc k = .ok v ∧ v.length = cs.length := by
  rw [bcEnd]
  have hall : ∀ e ∈ cs.map Con.expr, Uses e (fixedNames q ++ q.controls ++ qds q ++ q.constraintParams) := by
    intro e he
    obtain ⟨c, h1, rfl⟩ := List.mem_map.1 he
    exact hq.bcs c (hc c h1)
  have hlen : (cs.map Con.expr).length = cs.length := by simp
  rw [← hlen]
  rcases computeU_total I hq hy hp hk with ⟨hl, h⟩ | ⟨u, h, hu⟩
  · rw [h]
    have hc := hq.chosen.resolve_left (not_not.2 hl)
    rw [hc] at hall
    by_cases hqd : q.quads.length > 0
    · simp only [if_pos hqd]
      refine lambdifyL_total I (args := [sts q, qds q, q.parameters, q.constraintParams, q.constants])
        (.cons (by simp [sts, hy]) (.cons (by simp [qds, hx]) (.cons hp.symm (.cons hpc.symm (.cons hk.symm .nil))))) ?_
      intro e hm s hs
      have := hall e hm s hs
      simp only [fixedNames, List.mem_append, List.flatten_cons, List.flatten_nil, List.append_nil] at this ⊢
      tauto
    · have hz : qds q = [] := by
        have : q.quads = [] := List.eq_nil_of_length_eq_zero (by omega)
        rw [qds, this]; rfl
      rw [hz] at hall
      simp only [if_neg hqd]
      refine lambdifyL_total I (args := [sts q, q.parameters, q.constraintParams, q.constants])
        (.cons (by simp [sts, hy]) (.cons hp.symm (.cons hpc.symm (.cons hk.symm .nil)))) ?_
      intro e hm s hs
      have := hall e hm s hs
      simp only [fixedNames, List.mem_append, List.flatten_cons, List.flatten_nil, List.append_nil] at this ⊢
      tauto
  · rw [h]
    by_cases hqd : q.quads.length > 0
    · simp only [if_pos hqd]
      refine lambdifyL_total I (args := [sts q, qds q, q.controls, q.parameters, q.constraintParams, q.constants])
        (.cons (by simp [sts, hy]) (.cons (by simp [qds, hx]) (.cons hu.symm (.cons hp.symm (.cons hpc.symm (.cons hk.symm .nil)))))) ?_
      intro e hm s hs
      have := hall e hm s hs
      simp only [fixedNames, List.mem_append, List.flatten_cons, List.flatten_nil, List.append_nil] at this ⊢
      tauto
    · have hz : qds q = [] := by
        have : q.quads = [] := List.eq_nil_of_length_eq_zero (by omega)
        rw [qds, this]; rfl
      rw [hz] at hall
      simp only [if_neg hqd]
      refine lambdifyL_total I (args := [sts q, q.controls, q.parameters, q.constraintParams, q.constants])
        (.cons (by simp [sts, hy]) (.cons hu.symm (.cons hp.symm (.cons hpc.symm (.cons hk.symm .nil))))) ?_
      intro e hm s hs
      have := hall e hm s hs
      simp only [fixedNames, List.mem_append, List.flatten_cons, List.flatten_nil, List.append_nil] at this ⊢
      tauto

end

/-! ### The pipeline -/

theorem ineq_mem {cons : List Con} {steps : List Step} (h : ineqSteps cons = .ok steps) : ∀ s ∈ steps, s = .epsTrig ∨ s = .utm := by
  intro s hs
  rw [ineqSteps] at h
  obtain ⟨c, -, hc⟩ := forall₂_right (mapM_pairs h) s hs
  split at hc
  · cases hc; exact Or.inl rfl
  · cases hc; exact Or.inr rfl
  · cases hc

theorem mid_ineq {P : Name → Prop} {D : List Name} {S : Sympy} {steps : List Step} (hs : ∀ s ∈ steps, s = .epsTrig ∨ s = .utm) {p p' : Prob}
    (hp : Mid P [] D p) (h : runSteps S steps p = .ok p') : Mid P [] D p' := by
  induction steps generalizing p with
  | nil => cases h; exact hp
  | cons s steps ih =>
    rw [runSteps_cons] at h
    obtain ⟨p1, h1, h⟩ := bind_ok h
    refine ih (fun s hs' => hs s (List.mem_cons_of_mem _ hs')) ?_ h
    rcases hs s (by simp) with rfl | rfl
    · exact mid_eps hp h1
    · exact mid_utm hp h1

/-- The problems between the functors of `make_indirect_method`. -/
structure Run (S : Sympy) (o : Opts) (p p1 p2 p3 q q1 q2 q3 q4 Q : Prob) (ineq : List Step) (ctl : Step) : Prop where
  pre : preprocess p = .ok p1
  shift : runSteps S (if o.momentumShift then [.momentumShift] else []) p1 = .ok p2
  ineqs : ineqSteps (p1.initial ++ p1.path ++ p1.terminal) = .ok ineq
  regular : runSteps S ineq p2 = .ok p3
  switches : runSteps S (if p1.switches.length > 0 then [.rashs] else []) p3 = .ok q
  dual : dualize S o.method q = .ok q1
  method : ctl = .algebraic ∧ o.controlMethod = .algebraic ∨ ctl = .differential o.method ∧ o.controlMethod = .differential
  control : ctl.run S q1 = .ok q2
  time : runSteps S (if o.normalizeTime then [.normalizeTime] else []) q2 = .ok q3
  squash : squash q3 = .ok q4
  jac : runSteps S (if o.analyticalJacobian && o.controlMethod ≠ .algebraic then [.jacobians] else []) q4 = .ok Q
  steps : indirectSteps o p1 = .ok ((if o.momentumShift then [.momentumShift] else []) ++ (ineq ++
    ((if p1.switches.length > 0 then [.rashs] else []) ++ (.dualize o.method :: ctl ::
    ((if o.normalizeTime then [.normalizeTime] else []) ++ (.squash ::
    (if o.analyticalJacobian && o.controlMethod ≠ .algebraic then [.jacobians] else [])))))))

theorem indirect_run {S : Sympy} {o : Opts} {p Q : Prob} (h : indirect S o p = .ok Q) :
    ∃ p1 p2 p3 q q1 q2 q3 q4 ineq ctl, Run S o p p1 p2 p3 q q1 q2 q3 q4 Q ineq ctl := by
  rw [indirect] at h
  obtain ⟨p1, h1, h⟩ := bind_ok h
  obtain ⟨steps, h2, h⟩ := bind_ok h
  have h2' := h2
  obtain ⟨ineq, ctl, hineq, hctl, rfl⟩ := indirectSteps_ok h2
  rw [List.append_assoc, List.append_assoc, List.append_assoc, List.append_assoc, List.append_assoc] at h h2'
  rw [runSteps_append] at h
  obtain ⟨p2, g2, h⟩ := bind_ok h
  rw [runSteps_append] at h
  obtain ⟨p3, g3, h⟩ := bind_ok h
  rw [runSteps_append] at h
  obtain ⟨q, g4, h⟩ := bind_ok h
  rw [runSteps_append, runSteps_cons] at h
  obtain ⟨q2, g5, h⟩ := bind_ok h
  obtain ⟨q1, g6, g5⟩ := bind_ok g5
  rw [runSteps_cons] at g5
  obtain ⟨q2', g7, g5⟩ := bind_ok g5
  cases g5
  rw [runSteps_append] at h
  obtain ⟨q3, g8, h⟩ := bind_ok h
  rw [runSteps_append, runSteps_cons] at h
  obtain ⟨q4', g9, h⟩ := bind_ok h
  obtain ⟨q4, g10, g9⟩ := bind_ok g9
  cases g9
  exact ⟨p1, p2, p3, q, q1, q2, q3, q4', ineq, ctl, h1, g2, hineq, g3, g4, g6, hctl, g7, g8, g10, h, h2'⟩

section
variable {S : Sympy} {o : Opts} {p p1 p2 p3 q q1 q2 q3 q4 Q : Prob} {ineq : List Step} {ctl : Step}

theorem Run.mid2 (h : Run S o p p1 p2 p3 q q1 q2 q3 q4 Q ineq ctl) (hp : WellScoped o p) : Mid (CostName o p) [] (swts p) p2 := by
  have h1 := pre_mid hp h.pre
  have h2 := h.shift
  by_cases hm : o.momentumShift = true
  · rw [if_pos hm] at h1 h2
    rw [runSteps_cons] at h2
    obtain ⟨r, hr, h2⟩ := bind_ok h2
    cases h2
    obtain ⟨f, hf⟩ := preprocess_ok hp.acyclic h.pre
    rw [← hf.ind] at h1
    exact mid_shift h1 hr
  · rw [if_neg hm] at h1 h2
    cases h2
    exact h1

theorem Run.mid3 (h : Run S o p p1 p2 p3 q q1 q2 q3 q4 Q ineq ctl) (hp : WellScoped o p) : Mid (CostName o p) [] (swts p) p3 :=
  mid_ineq (ineq_mem h.ineqs) (h.mid2 hp) h.regular

theorem Run.ready (h : Run S o p p1 p2 p3 q q1 q2 q3 q4 Q ineq ctl) (hp : WellScoped o p) : Ready q := by
  have h3 := h.mid3 hp
  have h1 := pre_mid hp h.pre
  have e : p1.switches.length = p3.switches.length := by
    rw [← List.length_map (f := Switch.name), h1.names, ← h3.names, List.length_map]
  have h4 := h.switches
  rw [e] at h4
  exact mid_rashs h3 h4

theorem Run.dualled (h : Run S o p p1 p2 p3 q q1 q2 q3 q4 Q ineq ctl) (hS : Tidy S) (hp : WellScoped o p) : Scoped q1 ∧ q1.controlLaw = [] := by
  refine ⟨ready_dualize hS (h.ready hp) h.dual, ?_⟩
  obtain ⟨cos, cops, sy, om, cm, -, -, -, hp'⟩ := dualize_ok hS (h.ready hp).start.1 (h.ready hp).start.2.1 h.dual
  rw [hp']
  exact (h.ready hp).start.2.2

theorem Run.controlled (h : Run S o p p1 p2 p3 q q1 q2 q3 q4 Q ineq ctl) (hS : Tidy S) (hp : WellScoped o p) :
    Scoped q2 ∧ (o.controlMethod = .differential → q2.controls = []) := by
  obtain ⟨h1, h2⟩ := h.dualled hS hp
  have h3 := h.control
  rcases h.method with ⟨rfl, hm⟩ | ⟨rfl, hm⟩
  · exact ⟨scoped_algebraic hS h1 h3, fun h' => by rw [hm] at h'; cases h'⟩
  · obtain ⟨h4, h5⟩ := scoped_differential hS h1 h2 h3
    exact ⟨h4, fun _ => h5⟩

theorem Run.timed (h : Run S o p p1 p2 p3 q q1 q2 q3 q4 Q ineq ctl) (hS : Tidy S) (hp : WellScoped o p) :
    Scoped q3 ∧ q3.controls = q2.controls ∧ q3.controlLaw = q2.controlLaw ∧ q3.costates.length = q2.costates.length ∧
      q3.states.length = q2.states.length ∧ q3.coparameters = q2.coparameters ∧ q3.quads = q2.quads ∧ q3.constants = q2.constants ∧
      q3.parameters = q2.parameters ++ if o.normalizeTime then ["_delta" ++ q2.ind] else [] := by
  have h1 := (h.controlled hS hp).1
  have h2 := h.time
  split at h2
  · next hn =>
    rw [runSteps_cons] at h2
    obtain ⟨r, hr, h2⟩ := bind_ok h2
    cases h2
    have hr : normalizeTime q2 = .ok q3 := hr
    refine ⟨scoped_normalizeTime h1 hr, ?_⟩
    rw [normalizeTime_ok hr, hn]
    simp
  · next hn =>
    cases h2
    rw [if_neg hn]
    exact ⟨h1, rfl, rfl, rfl, rfl, rfl, rfl, rfl, by simp⟩

theorem Run.closed (h : Run S o p p1 p2 p3 q q1 q2 q3 q4 Q ineq ctl) (hS : Tidy S) (hp : WellScoped o p)
    (hc : o.controlMethod = .algebraic → Q.controlLaw ≠ [] ∨ Q.controls = []) : Closed Q := by
  obtain ⟨h1, e1, -⟩ := h.timed hS hp
  obtain ⟨h2, h3, h4, h5⟩ := scoped_squash h1 h.squash
  have e2 : q4.controls = q3.controls := by have := h.squash; cases this; rfl
  have hj : ∃ a b, Q = { q4 with dfdy := a, dfdp := b } := by
    have := h.jac
    split at this
    · rw [runSteps_cons] at this
      obtain ⟨r, hr, this⟩ := bind_ok this
      cases this
      exact jacobians_ok hr
    · cases this
      exact ⟨q4.dfdy, q4.dfdp, rfl⟩
  obtain ⟨a, b, rfl⟩ := hj
  refine Scoped.closed ⟨h2.rates, h2.bcs, h2.ham, h2.law⟩ h3 h4 h5 ?_
  rcases h.method with ⟨-, hm⟩ | ⟨-, hm⟩
  · exact hc hm
  · right
    change q4.controls = []
    rw [e2, e1, (h.controlled hS hp).2 hm]

end

end Beluga.Scope
