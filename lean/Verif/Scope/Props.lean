import Verif.Scope.Backward
import Verif.EndToEnd.Props

/-!
# Well-scoped problems do not go wrong (C78)

If every symbol of a problem is declared and used where it has a value, then the functions that are compiled from the boundary
value problem never raise, and every trajectory of the right size is mapped back.
-/

namespace Beluga.Scope

open Beluga.Sym Beluga.Sym.Expr Beluga.Num Beluga.Map Beluga.Opt Beluga.E2E

private theorem ok_bind' {α β : Type} (a : α) (f : α → Py β) : ((Except.ok a : Py α) >>= f) = f a := rfl

section
variable {S : Sympy} {o : Opts} {p Q : Prob}

/-- The compiled functions of the boundary value problem return a value for every equation, for all arguments of the right
sizes.  With the algebraic control law, `solve` must have found one. -/
theorem C78_computes (hS : Tidy S) (hp : WellScoped o p) (h : indirect S o p = .ok Q)
    (hc : o.controlMethod = .algebraic → Q.controlLaw ≠ [] ∨ Q.controls = []) (K : Type) [Field K] [LinearOrder K] : Computes K Q := by
  obtain ⟨p1, p2, p3, q, q1, q2, q3, q4, ineq, ctl, hr⟩ := indirect_run h
  have hq := hr.closed hS hp hc
  refine ⟨?_, ?_, ?_⟩
  · intro I y pr k hy hpr hk
    obtain ⟨v, hv, hl⟩ := atPoint_total I hq hy hpr hk (es := Q.states.map Dyn.eom) (by
      intro e he
      obtain ⟨d, hd, rfl⟩ := List.mem_map.1 he
      exact hq.rates d (List.mem_append_left _ hd))
    exact ⟨v, hv, by simpa using hl⟩
  · intro f hf I y pr k hy hpr hk
    rw [quadFunc] at hf
    split at hf
    · cases hf
      obtain ⟨v, hv, hl⟩ := atPoint_total I hq hy hpr hk (es := Q.quads.map Dyn.eom) (by
        intro e he
        obtain ⟨d, hd, rfl⟩ := List.mem_map.1 he
        exact hq.rates d (List.mem_append_right _ hd))
      exact ⟨v, hv, by simpa using hl⟩
    · cases hf
  · intro I y0 q0 yf qf pr pc k h1 h2 h3 h4 h5 h6 h7
    obtain ⟨a, ha, hla⟩ := bcEnd_total I hq h1 h5 h7 h2 h6 (cs := Q.initial) fun c hc => List.mem_append_left _ hc
    obtain ⟨b, hb, hlb⟩ := bcEnd_total I hq h3 h5 h7 h4 h6 (cs := Q.terminal) fun c hc => List.mem_append_right _ hc
    refine ⟨a ++ b, ?_, by rw [List.length_append, hla, hlb]⟩
    rw [bcFunc, ha, ok_bind', hb, ok_bind']

theorem jacobians_fields {p p' : Prob} (h : analyticalJacobians p = .ok p') :
    p.states ≠ [] ∧ p.initial ≠ [] ∧ p.terminal ≠ [] ∧
    p'.dfdy = (p.states.map Dyn.eom).map (fun r => (sts p).map fun c => r.diff c) ∧
    (p.parameters ≠ [] → p'.dfdp = (p.states.map Dyn.eom).map fun r => p.parameters.map fun c => r.diff c) ∧
    p' = { p with dfdy := p'.dfdy, dfdp := p'.dfdp } := by
  rw [analyticalJacobians] at h
  obtain ⟨dfdy, h1, h⟩ := bind_ok h
  obtain ⟨e1, e2, rfl⟩ := Sym.jacobian_ok h1
  obtain ⟨_, h2, h⟩ := bind_ok h
  obtain ⟨e3, -, -⟩ := Sym.jacobian_ok h2
  obtain ⟨_, h3, h⟩ := bind_ok h
  obtain ⟨e4, -, -⟩ := Sym.jacobian_ok h3
  have fin : ∀ d, (do
      if p.quads.length > 0 then
        let _ ← jacobian (p.initial.map Con.expr) (p.quads.map Dyn.name)
        let _ ← jacobian (p.terminal.map Con.expr) (p.quads.map Dyn.name)
      .ok { p with dfdy := (p.states.map Dyn.eom).map (fun r => (p.states.map Dyn.name).map fun c => r.diff c), dfdp := d } : Py Prob) = .ok p' →
      p' = { p with dfdy := (p.states.map Dyn.eom).map (fun r => (p.states.map Dyn.name).map fun c => r.diff c), dfdp := d } := by
    intro d h
    by_cases hq : p.quads.length > 0
    · simp only [if_pos hq] at h
      obtain ⟨_, -, h⟩ := bind_ok h
      obtain ⟨_, -, h⟩ := bind_ok h
      cases h; rfl
    · simp only [if_neg hq] at h
      cases h; rfl
  refine ⟨by simpa using e1, by simpa using e3, by simpa using e4, ?_⟩
  by_cases hpar : (p.parameters ++ p.constraintParams).length > 0
  · simp only [if_pos hpar] at h
    obtain ⟨d, h4, h⟩ := bind_ok h
    obtain ⟨-, -, rfl⟩ := Sym.jacobian_ok h4
    obtain ⟨_, -, h⟩ := bind_ok h
    obtain ⟨_, -, h⟩ := bind_ok h
    rw [fin _ h]
    exact ⟨rfl, fun _ => rfl, rfl⟩
  · simp only [if_neg hpar] at h
    rw [fin [] h]
    refine ⟨rfl, fun hne => ?_, rfl⟩
    exact absurd (List.length_pos_iff.2 hne) (by simp only [List.length_append] at hpar; omega)

theorem uses_diff {e : Expr} {l : List Name} {x : Name} (h : Uses e l) : Uses (e.diff x) l := fun s hs => h s (mem_free_diff hs)

section
variable {K : Type} [Field K]

theorem grid_total (I : Interp K) {args : List (List Name)} {vals : List (List K)} (hs : Sizes args vals) {es : List Expr} {xs : List Name}
    (he : ∀ e ∈ es, Uses e args.flatten) :
    ∃ a, lambdifyM I args (es.map fun e => xs.map fun x => e.diff x) vals = .ok a ∧ IsMatrix a es.length xs.length := by
  obtain ⟨a, ha, hl⟩ := lambdifyM_total I hs (es := es.map fun e => xs.map fun x => e.diff x) (by
    intro r hr e' he'
    obtain ⟨e, h1, rfl⟩ := List.mem_map.1 hr
    obtain ⟨x, -, rfl⟩ := List.mem_map.1 he'
    exact uses_diff (he e h1))
  refine ⟨a, ha, by rw [← hl.length_eq, List.length_map], ?_⟩
  intro r hr
  obtain ⟨r', h1, h2⟩ := forall₂_right hl r hr
  obtain ⟨e, -, rfl⟩ := List.mem_map.1 h1
  rw [h2, List.length_map]

omit [Field K] in
theorem IsMatrix.append {a b : List (List K)} {m m' n : Nat} (h : IsMatrix a m n) (h' : IsMatrix b m' n) : IsMatrix (a ++ b) (m + m') n :=
  ⟨by rw [List.length_append, h.1, h'.1], fun r hr => (List.mem_append.1 hr).elim (h.2 r) (h'.2 r)⟩

theorem IsMatrix.zeros (m n : Nat) : IsMatrix (Num.zeros m n : List (List K)) m n :=
  ⟨by simp [Num.zeros], fun r hr => by rw [List.eq_of_mem_replicate hr]; simp⟩

end

/-- With the differential control law and at least one parameter (`NormalizeTime` adds one), the compiled Jacobians return
matrices of the right sizes. -/
theorem C78_jacobians (hS : Tidy S) (hp : WellScoped o p) (hj : o.analyticalJacobian = true) (hc : o.controlMethod = .differential)
    (h : indirect S o p = .ok Q) (hpar : Q.parameters ≠ []) (K : Type) [Field K] [LinearOrder K] : Differentiates K Q := by
  obtain ⟨p1, p2, p3, q, q1, q2, q3, q4, ineq, ctl, hr⟩ := indirect_run h
  have hq := hr.closed hS hp (by rw [hc]; intro h; cases h)
  have hjac := hr.jac
  rw [hj, hc, if_pos (by decide), runSteps_cons] at hjac
  obtain ⟨r, hr', hjac⟩ := bind_ok hjac
  cases hjac
  have hr' : analyticalJacobians q4 = .ok Q := hr'
  obtain ⟨n1, n2, n3, d1, d2, e⟩ := jacobians_fields hr'
  have es : Q.states = q4.states := by rw [e]
  have ep : Q.parameters = q4.parameters := by rw [e]
  have ei : Q.initial = q4.initial := by rw [e]
  have et : Q.terminal = q4.terminal := by rw [e]
  rw [← es] at n1
  rw [← ei] at n2
  rw [← et] at n3
  have d1' : Q.dfdy = (Q.states.map Dyn.eom).map (fun r => (sts Q).map fun c => r.diff c) := by rw [d1, sts, sts, es]
  have d2' : Q.dfdp = (Q.states.map Dyn.eom).map (fun r => Q.parameters.map fun c => r.diff c) := by
    rw [d2 (by rw [← ep]; exact hpar), es, ep]
  have hctl : Q.controls = [] := by
    have h1 := (hr.controlled hS hp).2 hc
    have h2 := (hr.timed hS hp).2.1
    have h3 : q4.controls = q3.controls := by have := hr.squash; cases this; rfl
    have h4 : Q.controls = q4.controls := by rw [e]
    rw [h4, h3, h2, h1]
  have hrate : ∀ x ∈ Q.states.map Dyn.eom, Uses x (fixedNames Q) := by
    intro x hx
    obtain ⟨d, hd, rfl⟩ := List.mem_map.1 hx
    have := hq.rates d (List.mem_append_left _ hd)
    rwa [hctl, List.append_nil] at this
  refine ⟨?_, ?_⟩
  · intro I
    rw [derivJac, if_neg (by rw [d1']; simpa using n1), if_neg (by rw [d2']; simpa using n1)]
    refine ⟨_, rfl, ?_⟩
    intro y pr k hy hpr hk
    have hs : Sizes [sts Q, Q.parameters, Q.constants] [y, pr, k] :=
      .cons (by simp [sts, hy]) (.cons hpr.symm (.cons hk.symm .nil))
    rw [d1', d2']
    rcases computeU_total I hq hy hpr hk with ⟨-, hu⟩ | ⟨u, hu, hul⟩
    · rw [hu]
      have hf : ∀ x ∈ Q.states.map Dyn.eom, Uses x [sts Q, Q.parameters, Q.constants].flatten := by
        intro x hx s hs
        have := hrate x hx s hs
        simpa [fixedNames] using this
      obtain ⟨a, ha, hma⟩ := grid_total I hs (xs := sts Q) hf
      obtain ⟨b, hb, hmb⟩ := grid_total I hs (xs := Q.parameters) hf
      rw [ok_bind']
      dsimp only
      rw [ha, ok_bind', hb, ok_bind']
      exact ⟨a, b, rfl, by simpa [sts] using hma, by simpa using hmb⟩
    · rw [hu]
      have hs : Sizes [sts Q, Q.controls, Q.parameters, Q.constants] [y, u, pr, k] :=
        .cons (by simp [sts, hy]) (.cons hul.symm (.cons hpr.symm (.cons hk.symm .nil)))
      have hf : ∀ x ∈ Q.states.map Dyn.eom, Uses x [sts Q, Q.controls, Q.parameters, Q.constants].flatten := by
        intro x hx s hs
        have := hrate x hx s hs
        simp only [fixedNames, List.mem_append, List.flatten_cons, List.flatten_nil, List.append_nil] at this ⊢
        tauto
      obtain ⟨a, ha, hma⟩ := grid_total I hs (xs := sts Q) hf
      obtain ⟨b, hb, hmb⟩ := grid_total I hs (xs := Q.parameters) hf
      rw [ok_bind']
      dsimp only
      rw [ha, ok_bind', hb, ok_bind']
      exact ⟨a, b, rfl, by simpa [sts] using hma, by simpa using hmb⟩
  · intro hquads I
    have hpars : Q.parameters ++ Q.constraintParams ≠ [] := fun h' => hpar (List.append_eq_nil_iff.1 h').1
    have hsts : sts Q ≠ [] := by simpa [sts] using n1
    have j : ∀ (cs : List Con) (xs : List Name), cs ≠ [] → xs ≠ [] →
        jacobian (cs.map Con.expr) xs = .ok ((cs.map Con.expr).map fun r => xs.map fun c => r.diff c) := by
      intro cs xs h1 h2
      rw [jacobian, if_neg (by simpa using not_or.2 ⟨h1, h2⟩)]
    rw [bcJac, j _ _ n2 hsts, ok_bind', j _ _ n3 hsts, ok_bind', if_neg hpars]
    simp only [j _ _ n2 hpars, j _ _ n3 hpars]
    refine ⟨_, rfl, ?_⟩
    intro y0 yf pr pc k h1 h2 h3 h4 h5
    have hs : ∀ y : List K, y.length = Q.states.length →
        Sizes [sts Q, Q.parameters, Q.constraintParams, Q.constants] [y, pr, pc, k] := fun y hy =>
      .cons (by simp [sts, hy]) (.cons h3.symm (.cons h4.symm (.cons h5.symm .nil)))
    have hf : ∀ cs : List Con, (∀ c ∈ cs, c ∈ Q.initial ++ Q.terminal) → ∀ x ∈ cs.map Con.expr,
        Uses x [sts Q, Q.parameters, Q.constraintParams, Q.constants].flatten := by
      intro cs hcs x hx s hs
      obtain ⟨c, hc, rfl⟩ := List.mem_map.1 hx
      have := hq.bcs c (hcs c hc) s hs
      have hz : qds Q = [] := by rw [qds, hquads]; rfl
      rw [hctl, hz] at this
      simp only [fixedNames, List.mem_append, List.flatten_cons, List.flatten_nil, List.append_nil] at this ⊢
      tauto
    have hi := hf Q.initial fun c hc => List.mem_append_left _ hc
    have ht := hf Q.terminal fun c hc => List.mem_append_right _ hc
    obtain ⟨a, ha, hma⟩ := grid_total I (hs y0 h1) (xs := sts Q) hi
    obtain ⟨b, hb, hmb⟩ := grid_total I (hs yf h2) (xs := sts Q) ht
    obtain ⟨c, hc', hmc⟩ := grid_total I (hs y0 h1) (xs := Q.parameters ++ Q.constraintParams) hi
    obtain ⟨d, hd, hmd⟩ := grid_total I (hs yf h2) (xs := Q.parameters ++ Q.constraintParams) ht
    rw [ha, ok_bind', hb, ok_bind', hc', ok_bind', hd, ok_bind']
    refine ⟨_, _, _, rfl, ?_, ?_, ?_⟩
    · have := hma.append (IsMatrix.zeros ((Q.terminal.map Con.expr).map fun r => (sts Q).map fun c => r.diff c).length (sts Q).length)
      simpa [sts] using this
    · have := (IsMatrix.zeros (K := K) ((Q.initial.map Con.expr).map fun r => (sts Q).map fun c => r.diff c).length (sts Q).length).append hmb
      simpa [sts] using this
    · have := hmc.append hmd
      simpa using this

theorem like_trans {a b c : Prob} (h : Like a b) (h' : Like b c) : Like a c :=
  ⟨h.1.trans h'.1, h.2.trans h'.2, h.3.trans h'.3, h.4.trans h'.4, h.5.trans h'.5⟩

theorem like_eps {p p' : Prob} (h : epsTrig p = .ok p') : Like p' p := by
  obtain ⟨i, c, k, u, a, lo, hi, -, -, -, -, -, -, -, e⟩ := epsTrig_inv h
  rw [e]
  refine ⟨?_, ?_, ?_, rfl, rfl⟩ <;> simp [Prob.subsAll]

theorem like_utm {p p' : Prob} (h : utm p = .ok p') : Like p' p := by
  rw [utm] at h
  split at h
  · cases h
  · split at h
    · cases h
    · split at h
      · cases h
      · split at h
        · split at h
          · cases h
            exact ⟨rfl, rfl, rfl, rfl, rfl⟩
          · cases h
        · cases h

theorem like_ineq {S : Sympy} {steps : List Step} (hs : ∀ s ∈ steps, s = .epsTrig ∨ s = .utm) {p p' : Prob} (h : runSteps S steps p = .ok p') :
    Like p' p := by
  induction steps generalizing p with
  | nil => cases h; exact ⟨rfl, rfl, rfl, rfl, rfl⟩
  | cons s steps ih =>
    rw [runSteps_cons] at h
    obtain ⟨p1, h1, h⟩ := bind_ok h
    refine like_trans (ih (fun s hs' => hs s (List.mem_cons_of_mem _ hs')) h) ?_
    rcases hs s (by simp) with rfl | rfl
    · exact like_eps h1
    · exact like_utm h1

theorem like_rashs {S : Sympy} {P : Name → Prop} {D : List Name} {p q : Prob} (hm : Mid P [] D p)
    (h : runSteps S (if p.switches.length > 0 then [.rashs] else []) p = .ok q) : Like q p := by
  obtain ⟨f, hf, he⟩ := rashs_step hm.sympified (mid_acyclic hm) h
  have h1 : q.states = p.states.map fun d => ⟨d.name, f d.eom⟩ := congrArg Prob.states hf
  have h2 : q.quads = p.quads.map fun d => ⟨d.name, f d.eom⟩ := congrArg Prob.quads hf
  have h3 : q.parameters = p.parameters := by have := congrArg Prob.parameters hf; exact this
  have h4 : q.constants = p.constants := by have := congrArg Prob.constants hf; exact this
  have h5 : q.controls = p.controls := by have := congrArg Prob.controls hf; exact this
  exact ⟨by rw [h1, List.length_map], by rw [h5], by rw [h2, List.length_map], by rw [h3], by rw [h4]⟩

theorem like_pre {p p1 : Prob} {f : Expr → Expr} (h : Pre p p1 f) : Like p1 p := by
  have h2 : p1.quads = p.quads.map fun d => ⟨d.name, f d.eom⟩ := congrArg Prob.quads h.eqs
  have h3 : p1.parameters = p.parameters := by have := congrArg Prob.parameters h.eqs; exact this
  exact ⟨by rw [h.states, List.length_map], by rw [h.controls], by rw [h2, List.length_map], by rw [h3], by rw [h.constants]⟩

theorem algebraic_fields {S : Sympy} {p p' : Prob} (h : algebraicControl S p = .ok p') :
    p' = { p with dhdu := p'.dhdu, controlLaw := p'.controlLaw, chain := p.chain ++ [.algebraic] } := by
  rw [algebraicControl] at h
  split at h
  · cases h
  · split at h
    · cases h
    · obtain ⟨r, -, h⟩ := bind_ok h
      cases h; rfl

theorem control_coparameters {S : Sympy} {m : Method} {p p' : Prob} (h : differentialControl S m p = .ok p') :
    p'.coparameters = p.coparameters := by
  cases m with
  | traditional =>
    obtain ⟨-, -, H, udot, -, -, e⟩ := differential_traditional h
    rw [e]
  | diffyg =>
    obtain ⟨-, -, H, udot, chi, -, -, -, -, e⟩ := differential_diffyg h
    rw [e]
  | other =>
    rw [differentialControl] at h
    split at h
    · cases h
    · split at h
      · cases h
      · obtain ⟨_, -, h⟩ := bind_ok h
        obtain ⟨_, -, h⟩ := bind_ok h
        obtain ⟨_, -, h⟩ := bind_ok h
        cases h

/-- Every trajectory whose arrays have the sizes of the boundary value problem is mapped back to a trajectory of the stated
problem, with controls, costates and cost.  The problem must have no parameters, and `solve` must have found a control law. -/
theorem C78_delivers_partial (hS : Tidy S) (hp : WellScoped o p) (hpar : p.parameters = []) (h : indirect S o p = .ok Q)
    (hc : o.controlMethod = .algebraic → Q.controlLaw ≠ []) {K : Type} [Field K] [LinearOrder K] (O : TrigOps K)
    (rule : List K → List K → K) (I : Interp K) {s : Sol K} (hs : Fits Q s) :
    ∃ s', invIndirect S O rule I o p s = .ok s' ∧ Delivered p s' := by
  obtain ⟨p1, p2, p3, q, q1, q2, q3, q4, ineq, ctl, hr⟩ := indirect_run h
  have hready := hr.ready hp
  obtain ⟨hsc1, hlaw1⟩ := hr.dualled hS hp
  have hsc2 := (hr.controlled hS hp).1
  obtain ⟨hsc3, t1, t2, t3, t4, t5, t6, t7, t8⟩ := hr.timed hS hp
  obtain ⟨f, hf⟩ := preprocess_ok hp.acyclic hr.pre
  have hm1 := pre_mid hp hr.pre
  have hm2 := hr.mid2 hp
  have hm3 := hr.mid3 hp
  have hsw : p1.switches.length = p3.switches.length := by
    rw [← List.length_map (f := Switch.name), hm1.names, ← hm3.names, List.length_map]
  have L1 := like_pre hf
  have L3 := like_ineq (ineq_mem hr.ineqs) hr.regular
  have L4 : Like q p3 := like_rashs hm3 (by rw [← hsw]; exact hr.switches)
  have hpar2 : p2.parameters = [] := by
    have h1 : p1.parameters = [] := List.eq_nil_of_length_eq_zero (by rw [L1.parameters, hpar]; rfl)
    have := hr.shift
    split at this
    · rw [runSteps_cons] at this
      obtain ⟨r, hr', this⟩ := bind_ok this
      cases this
      rw [momentumShift_fields hr']
      exact h1
    · cases this; exact h1
  have hparq : q.parameters = [] := List.eq_nil_of_length_eq_zero (by rw [L4.parameters, L3.parameters, hpar2]; rfl)
  -- the costates of the dualised problem
  obtain ⟨cos, cops, sy, om, cm, n1, n2, -, e1⟩ := dualize_ok hS hready.start.1 hready.start.2.1 hr.dual
  have c1 : q1.coparameters = [] := by
    rw [e1]
    have := congrArg List.length n2
    rw [hparq] at this
    exact List.eq_nil_of_length_eq_zero (by simpa using this)
  have c2 : q1.costates.length = q.states.length := by
    rw [e1]
    have := congrArg List.length n1
    simpa [sts] using this
  have c3 : q1.states = q.states := by rw [e1]
  -- from the boundary value problem to the dualised problem
  have hQ : Fits q4 s ∧ Q.controlLaw = q4.controlLaw ∧
      invSteps S O rule I (if o.analyticalJacobian && o.controlMethod ≠ .algebraic then [.jacobians] else []) q4 s = .ok s := by
    have := hr.jac
    by_cases hj : (o.analyticalJacobian && decide (o.controlMethod ≠ .algebraic)) = true
    · rw [if_pos hj] at this ⊢
      rw [runSteps_cons] at this
      obtain ⟨r, hr', this⟩ := bind_ok this
      cases this
      obtain ⟨a, b, rfl⟩ := jacobians_ok hr'
      refine ⟨⟨hs.times, hs.states, hs.quads, hs.dyn, hs.const⟩, rfl, ?_⟩
      rw [invSteps_single (S := S) (step := .jacobians) (tags := []) hr' (by rw [List.append_nil])]
      rfl
    · rw [if_neg hj] at this ⊢
      cases this
      exact ⟨hs, rfl, rfl⟩
  have c4 : q3.coparameters = [] := by
    rw [t5, ← c1]
    have := hr.control
    rcases hr.method with ⟨rfl, -⟩ | ⟨rfl, -⟩
    · rw [algebraic_fields this]
    · exact control_coparameters this
  obtain ⟨s4, r4, b4⟩ := back_squash (S := S) (O := O) (rule := rule) (I := I) hr.squash c4 hQ.1
  have b3 : ∃ s3, invSteps S O rule I (if o.normalizeTime then [.normalizeTime] else []) q2 s4 = .ok s3 ∧ Base q2 q3.costates.length s3 := by
    have := hr.time
    by_cases hn : o.normalizeTime = true
    · rw [if_pos hn] at this ⊢
      rw [runSteps_cons] at this
      obtain ⟨r, hr', this⟩ := bind_ok this
      cases this
      exact back_time (S := S) (O := O) (rule := rule) (I := I) hr' b4
    · rw [if_neg hn] at this ⊢
      cases this
      exact ⟨s4, rfl, b4⟩
  obtain ⟨s3, r3, b3⟩ := b3
  rw [t3] at b3
  have b2 : ∃ s2, invSteps S O rule I [ctl] q1 s3 = .ok s2 ∧ Held q1 q1.costates.length s2 := by
    have hrun := hr.control
    rcases hr.method with ⟨rfl, hm⟩ | ⟨rfl, hm⟩
    · have hl : q2.controlLaw ≠ [] := by
        have h1 : q4.controlLaw = q3.controlLaw := by have := hr.squash; cases this; rfl
        rw [← t2, ← h1, ← hQ.2.1]
        exact hc hm
      have e : q2.costates = q1.costates := by rw [algebraic_fields hrun]
      rw [← e]
      exact back_algebraic (S := S) (O := O) (rule := rule) (I := I) hrun hsc2 hl b3
    · exact back_differential (S := S) (O := O) (rule := rule) (I := I) hS hsc1 (by rw [c2, c3]) hrun b3
  obtain ⟨s2, r2, b2⟩ := b2
  rw [c2] at b2
  -- from the dualised problem to the stated problem
  obtain ⟨s1, r1, b1, hcost⟩ := back_dualize (S := S) (O := O) (rule := rule) (I := I) hS hready hr.dual b2
  have hsw' : (if p1.switches.length > 0 then [Step.rashs] else []) = if decide (p3.switches.length > 0) then [.rashs] else [] := by
    rw [hsw]; simp
  obtain ⟨r0, b0⟩ := back_rashs (S := S) (O := O) (rule := rule) (I := I) hm3 (b := decide (p3.switches.length > 0)) rfl
    (by rw [← hsw']; exact hr.switches) b1
  obtain ⟨s0, ri, bi, hci⟩ := back_ineq (S := S) (O := O) (rule := rule) (I := I) (ineq_mem hr.ineqs) hm2 hr.regular b0
  rw [L4.states, L3.states] at bi
  have bs : ∃ s', invSteps S O rule I (if o.momentumShift then [.momentumShift] else []) p1 s0 = .ok s' ∧
      Held p1 p1.states.length s' ∧ s'.cost = s0.cost := by
    have := hr.shift
    by_cases hn : o.momentumShift = true
    · rw [if_pos hn] at this ⊢
      rw [runSteps_cons] at this
      obtain ⟨r, hr', this⟩ := bind_ok this
      cases this
      exact back_shift (S := S) (O := O) (rule := rule) (I := I) hr' bi
    · rw [if_neg hn] at this ⊢
      cases this
      exact ⟨s0, rfl, bi, rfl⟩
  obtain ⟨s', rs, bs, hcs⟩ := bs
  have hrun : ∀ {st : Step} {a b : Prob}, st.run S a = .ok b → runSteps S [st] a = .ok b := by
    intro st a b h
    rw [runSteps_cons, h]; rfl
  refine ⟨s', ?_, ?_⟩
  · rw [invIndirect, hr.pre, ok_bind', hr.steps, ok_bind', invSteps_append' hr.shift, invSteps_append' hr.regular,
      invSteps_append' hr.switches]
    have g1 : ∀ l, invSteps S O rule I (.dualize o.method :: l) q s = _ := fun l => invSteps_append' (l := [.dualize o.method]) (hrun hr.dual)
    have g2 : ∀ l, invSteps S O rule I (ctl :: l) q1 s = _ := fun l => invSteps_append' (l := [ctl]) (hrun hr.control)
    have g3 : ∀ l, invSteps S O rule I (.squash :: l) q3 s = _ := fun l => invSteps_append' (l := [.squash]) (hrun (st := .squash) hr.squash)
    rw [g1, g2, invSteps_append' hr.time, g3, hQ.2.2, ok_bind', r4, ok_bind', r3, ok_bind', r2, ok_bind', r1, ok_bind', hsw', r0,
      ok_bind', ri, ok_bind', rs]
  · have bp := bs.like L1
    rw [L1.states] at bp
    exact ⟨bp.toFits, bp.duals, bp.controls, by rw [hcs, hci]; exact hcost⟩

end

/-! ### A concrete case -/

/-- The solver of `Opt.exS`, and a division for one linear equation. -/
def exT : Sympy := { Opt.exS with lu := fun M b => match M, b with
  | [[m]], [c] => .ok [c / m]
  | _, _ => .error .valueError }

theorem exT_tidy : Tidy exT where
  solve := by
    intro eqs syms sol hsol hall u hu e he s hs
    change sol ∈ (if eqs = [hamiltonianOf (1 + sym "u" * sym "u") [⟨"x", sym "u"⟩, ⟨"t", 1⟩]].map (Expr.diff "u") ∧ syms = ["u"]
      then [[("u", -(sym "_lam_x") / 2)]] else []) at hsol
    split at hsol
    · next h =>
      obtain ⟨rfl, rfl⟩ := h
      rw [List.mem_singleton] at hsol hu
      subst hsol hu
      have : e = -(sym "_lam_x") / 2 := by
        have : some (-(sym "_lam_x") / 2) = some e := he
        cases this; rfl
      subst this
      have h1 : (-(sym "_lam_x") / 2 : Expr).free ⊆ ["_lam_x"] := by decide
      have := List.mem_singleton.1 (h1 hs)
      subst this
      decide
    · cases hsol
  lu := by
    intro M b x h e he s hs
    simp only [exT] at h
    split at h
    · cases h
      rw [List.mem_singleton] at he
      subst he
      have : s ∈ _ ++ _ := hs
      rcases List.mem_append.1 this with h | h
      · exact .inr ⟨_, List.mem_singleton.2 rfl, h⟩
      · exact .inl ⟨_, List.mem_singleton.2 rfl, _, List.mem_singleton.2 rfl, h⟩
    · cases h
  size := by
    intro M b x h _
    simp only [exT] at h
    split at h
    · cases h; rfl
    · cases h

theorem trig_underscore {l : List Name} (h : ∀ s ∈ l, s.toList.head? ≠ some '_') (n : Name) : trigName n ∉ l := by
  intro hm
  refine h _ hm ?_
  rw [trigName, String.toList_append, String.toList_append]
  rfl

theorem exP_wellScoped {o : Opts} (ho : o.momentumShift = true) : WellScoped o Opt.exP where
  start := ⟨rfl, rfl, rfl⟩
  acyclic := ⟨fun _ => 0, by decide⟩
  path := by simp only [known, ho]; unfold Uses; decide
  ends := by simp only [known, ho]; unfold Uses; decide
  costs := by
    intro e he s hs
    refine .base ?_
    revert e s
    simp only [known, ho]
    decide
  quantities := by simp only [known, ho]; unfold Uses; decide
  switches := by simp [Opt.exP]
  bounds := by simp [Opt.exP]
  activators := by simp [Opt.exP]
  names := by simp only [known, ho]; decide
  trig := trig_underscore (by simp only [known, ho]; decide)

/-- The options of the concrete cases: algebraic and differential control. -/
def exOd : Opts := { controlMethod := .differential, analyticalJacobian := true }

def exA : Prob := match indirect exT Opt.exO Opt.exP with
  | .ok p => p
  | .error _ => {}

def exD : Prob := match indirect exT exOd Opt.exP with
  | .ok p => p
  | .error _ => {}

theorem exA_ok : indirect exT Opt.exO Opt.exP = .ok exA := by
  obtain ⟨v, hv⟩ := ok_of (x := indirect exT Opt.exO Opt.exP) (by decide +kernel)
  rw [exA, hv]

theorem exD_ok : indirect exT exOd Opt.exP = .ok exD := by
  obtain ⟨v, hv⟩ := ok_of (x := indirect exT exOd Opt.exP) (by decide +kernel)
  rw [exD, hv]

example : Computes ℚ exA := C78_computes exT_tidy (exP_wellScoped rfl) exA_ok (fun _ => .inl (by decide +kernel)) ℚ

example : Computes ℚ exD := C78_computes exT_tidy (exP_wellScoped rfl) exD_ok (fun h => by cases h) ℚ

example : Differentiates ℚ exD := C78_jacobians exT_tidy (exP_wellScoped rfl) rfl rfl exD_ok (by decide +kernel) ℚ

theorem exSol_fits : Fits exA E2E.exSol where
  times := by simp [E2E.exSol, exGrid]
  states := by
    have : exA.states.length = 4 := by decide +kernel
    rw [this]
    exact ⟨_, rfl, by simp [E2E.exSol], by simp [exGrid]⟩
  quads := .inl ⟨by decide +kernel, rfl⟩
  dyn := by
    have : exA.parameters.length = 1 := by decide +kernel
    rw [this]; rfl
  const := by
    have : exA.constants.length = 1 := by decide +kernel
    rw [this]; rfl

example (O : TrigOps ℝ) (rule : List ℝ → List ℝ → ℝ) (I : Interp ℝ) :
    ∃ s', invIndirect exT O rule I Opt.exO Opt.exP E2E.exSol = .ok s' ∧ Delivered Opt.exP s' :=
  C78_delivers_partial exT_tidy (exP_wellScoped rfl) rfl exA_ok (fun _ => by decide +kernel) O rule I exSol_fits

/-- A problem with a bounded control, a quantity in the bounds, a switch in the rates, and time in the costs. -/
def exPr : Prob := {
  ind := "t"
  states := [⟨"x", sym "u" * sym "w"⟩]
  controls := ["u"]
  constants := ["eps", "k"]
  quantities := [⟨"b", 2 * sym "k", []⟩]
  switches := [{ name := "w", functions := [1, sym "b"], conditions := [[sym "x"], [-(sym "x")]], tol := sym "eps" }]
  path := [{ expr := sym "u", lower := some (-(sym "b")), upper := some (sym "b"), activator := some (sym "eps"), method := .epstrig }]
  costPath := sym "u" * sym "b"
  costTerminal := sym "t" * sym "w"
  initial := [{ expr := sym "x" }, { expr := sym "t" }]
  terminal := [{ expr := sym "x" - 1 }] }

theorem exPr_wellScoped : WellScoped exOd exPr where
  start := ⟨rfl, rfl, rfl⟩
  acyclic := ⟨fun _ => 0, by decide⟩
  path := by unfold Uses; decide
  ends := by unfold Uses; decide
  costs := by
    have hk : ∀ s ∈ known exOd exPr ++ qds exPr, Determined (known exOd exPr ++ qds exPr) (quantityDefs exPr ++ switchDefs exPr) s :=
      fun s hs => .base hs
    have hb : Determined (known exOd exPr ++ qds exPr) (quantityDefs exPr ++ switchDefs exPr) "b" := by
      refine .defn (l := [2 * sym "k"]) (by decide) fun e he s hs => hk s ?_
      revert e s
      decide
    have hw : Determined (known exOd exPr ++ qds exPr) (quantityDefs exPr ++ switchDefs exPr) "w" := by
      refine .defn (l := [sym "eps", 1, sym "b", sym "x", -(sym "x")]) (by decide) fun e he s hs => ?_
      have : s = "b" ∨ s ∈ known exOd exPr ++ qds exPr := by revert e s; decide
      rcases this with rfl | h
      · exact hb
      · exact hk s h
    intro e he s hs
    have : s = "w" ∨ s ∈ known exOd exPr ++ qds exPr := by revert e s; decide
    rcases this with rfl | h
    · exact hw
    · exact hk s h
  quantities := by unfold Uses; decide
  switches := by unfold Uses; decide
  bounds := by
    intro c hc hm e he s hs
    have : s = "b" := by revert c e s; decide
    subst this
    refine .defn (l := [2 * sym "k"]) (by decide) fun e he s hs => .base ?_
    revert e s
    decide
  activators := by unfold Uses; decide
  names := by decide
  trig := trig_underscore (by decide)

example : ∃ Q, indirect exT exOd exPr = .ok Q ∧ Computes ℚ Q ∧ Differentiates ℚ Q := by
  obtain ⟨Q, hQ⟩ := ok_of (x := indirect exT exOd exPr) (by decide +kernel)
  have hp : (match indirect exT exOd exPr with | .ok Q => decide (Q.parameters ≠ []) | .error _ => false) = true := by decide +kernel
  rw [hQ] at hp
  exact ⟨Q, hQ, C78_computes exT_tidy exPr_wellScoped hQ (fun h => by cases h) ℚ,
    C78_jacobians exT_tidy exPr_wellScoped rfl rfl hQ (of_decide_eq_true hp) ℚ⟩

/-! ### What goes wrong -/

theorem error_of {α : Type} {e : PyErr} {x : Py α} (h : (match x with | .ok _ => false | .error e' => decide (e' = e)) = true) :
    x = .error e := by
  cases x with
  | ok v => cases h
  | error e' => rw [of_decide_eq_true h]

/-- The problem with a parameter. -/
def exPp : Prob := { Opt.exP with parameters := ["a"] }

def exQp : Prob := match indirect exT Opt.exO exPp with
  | .ok p => p
  | .error _ => {}

theorem exQp_ok : indirect exT Opt.exO exPp = .ok exQp := by
  obtain ⟨v, hv⟩ := ok_of (x := indirect exT Opt.exO exPp) (by decide +kernel)
  rw [exQp, hv]

theorem exPp_wellScoped : WellScoped Opt.exO exPp where
  start := ⟨rfl, rfl, rfl⟩
  acyclic := ⟨fun _ => 0, by decide⟩
  path := by unfold Uses; decide
  ends := by unfold Uses; decide
  costs := by
    intro e he s hs
    refine .base ?_
    revert e s
    decide
  quantities := by unfold Uses; decide
  switches := by simp [exPp, Opt.exP]
  bounds := by simp [exPp, Opt.exP]
  activators := by simp [exPp, Opt.exP]
  names := by decide
  trig := trig_underscore (by decide)

def exSolQ : Sol ℚ where
  t := [0, 1]
  dualT := []
  y := .rows 4 [[0, 0, -2, 0], [1, 1, -2, 0]]
  dual := .empty
  q := .rows 1 [[0], [0]]
  u := .empty
  dualU := .empty
  dyn := [0, 1]
  nondyn := [2, 0, -2]
  const := [0]
  converged := true
  cost := none

def exOps : TrigOps ℚ := ⟨fun _ => 0, fun _ => 0⟩

def exInterp : Interp ℚ := ⟨3, fun _ _ => 0⟩

instance {K : Type} (a : Arr K) (T c : Nat) : Decidable (a.Shape T c) := match a with
  | .empty => .isFalse (by rintro ⟨r, h, -⟩; cases h)
  | .rows n r => decidable_of_iff (n = c ∧ r.length = T ∧ ∀ x ∈ r, x.length = c) (by
      constructor
      · rintro ⟨rfl, h1, h2⟩
        exact ⟨r, rfl, h1, h2⟩
      · rintro ⟨r', h, h1, h2⟩
        cases h
        exact ⟨rfl, h1, h2⟩)

/-- Without the assumption on parameters the property is false: the costates of parameters stay in the table of quadratures
when `SquashToBVPMapper` is undone (trajectory_mappers.py:361-366), and `compute_cost` then raises because it unpacks a
row of that table into the quadratures of the stated problem. -/
theorem C78_violated : ∃ (S : Sympy) (o : Opts) (p Q : Prob) (s : Sol ℚ), Tidy S ∧ WellScoped o p ∧ indirect S o p = .ok Q ∧
    Q.controlLaw ≠ [] ∧ Fits Q s ∧ ∀ rule, invIndirect S exOps rule exInterp o p s = .error .valueError := by
  refine ⟨exT, Opt.exO, exPp, exQp, exSolQ, exT_tidy, exPp_wellScoped, exQp_ok, by decide +kernel,
    ⟨by decide, by decide +kernel, .inr (by decide +kernel), by decide +kernel, by decide +kernel⟩, fun rule => ?_⟩
  apply error_of
  rfl

/-- A bound that depends on a switch. -/
def exPs : Prob := {
  ind := "t"
  states := [⟨"x", sym "u"⟩]
  controls := ["u"]
  constants := ["eps"]
  switches := [{ name := "w", functions := [1, 2], conditions := [[sym "x"], [-(sym "x")]], tol := sym "eps" }]
  path := [{ expr := sym "u", lower := some (-(sym "w")), upper := some (sym "w"), activator := some (sym "eps"), method := .epstrig }]
  costPath := 1
  initial := [{ expr := sym "x" }, { expr := sym "t" }]
  terminal := [{ expr := sym "x" - 1 }] }

/-- A cost at the end that depends on the control. -/
def exPu : Prob := {
  ind := "t"
  states := [⟨"x", sym "u"⟩]
  controls := ["u"]
  constants := ["eps"]
  costPath := 1
  costTerminal := sym "u" * sym "u"
  initial := [{ expr := sym "x" }, { expr := sym "t" }]
  terminal := [{ expr := sym "x" - 1 }] }

def exSolD : Sol ℚ := { exSolQ with
  y := .rows 5 [[0, 0, 1, -2, 0], [1, 1, 1, -2, 0]]
  q := .empty
  dyn := [1] }

/-- The bounds of a control must not depend on a switch: the mapper keeps the bounds that it has been given, and the switches
are substituted afterwards (mapping_functions.py:797-938).  Mapping back raises. -/
theorem C78_bounds_violated : ∃ Q, indirect exT exOd exPs = .ok Q ∧ Fits Q exSolD ∧
    ∀ rule, invIndirect exT exOps rule exInterp exOd exPs exSolD = .error .nameError := by
  obtain ⟨v, hv⟩ := ok_of (x := indirect exT exOd exPs) (by decide +kernel)
  have h : (match indirect exT exOd exPs with
      | .ok Q => decide (exSolD.y.Shape exSolD.t.length Q.states.length ∧ Q.quads.length = 0 ∧ exSolD.dyn.length = Q.parameters.length ∧
          exSolD.const.length = Q.constants.length)
      | .error _ => false) = true := by decide +kernel
  rw [hv] at h
  obtain ⟨h1, h2, h3, h4⟩ := of_decide_eq_true h
  refine ⟨v, hv, ⟨by decide, h1, .inl ⟨h2, rfl⟩, h3, h4⟩, fun rule => ?_⟩
  apply error_of
  rfl

/-- Costs at the ends must not depend on a control: `compute_cost` has no value for it (component_compilation.py:40-57). -/
theorem C78_costs_violated : ∃ Q, indirect exT exOd exPu = .ok Q ∧ Fits Q exSolD ∧
    ∀ rule, invIndirect exT exOps rule exInterp exOd exPu exSolD = .error .nameError := by
  obtain ⟨v, hv⟩ := ok_of (x := indirect exT exOd exPu) (by decide +kernel)
  have h : (match indirect exT exOd exPu with
      | .ok Q => decide (exSolD.y.Shape exSolD.t.length Q.states.length ∧ Q.quads.length = 0 ∧ exSolD.dyn.length = Q.parameters.length ∧
          exSolD.const.length = Q.constants.length)
      | .error _ => false) = true := by decide +kernel
  rw [hv] at h
  obtain ⟨h1, h2, h3, h4⟩ := of_decide_eq_true h
  refine ⟨v, hv, ⟨by decide, h1, .inl ⟨h2, rfl⟩, h3, h4⟩, fun rule => ?_⟩
  apply error_of
  rfl

end Beluga.Scope
