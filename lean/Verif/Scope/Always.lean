import Verif.Scope.Props
import Verif.Extremal.Fixed

/-! # No trajectory of a problem with parameters can be mapped back (C78) -/

namespace Beluga.Scope

open Beluga.Sym Beluga.Sym.Expr Beluga.Num Beluga.Map Beluga.Opt Beluga.E2E

private theorem ok_bind' {α β : Type} (a : α) (f : α → Py β) : ((Except.ok a : Py α) >>= f) = f a := rfl

/-! ### The number of quadratures -/

private theorem setEoms_length (ds : List Dyn) (es : List Expr) : (setEoms ds es).length = ds.length := by
  rw [← List.length_map (f := Dyn.name), setEoms_names, List.length_map]

theorem dualize_sizes {S : Sympy} {m : Method} {q q1 : Prob} (h : dualize S m q = .ok q1) :
    q1.quads = q.quads ∧ q.parameters.length ≤ q1.coparameters.length ∧ ∃ tag, q1.chain = q.chain ++ [tag] ∧
      ∃ a b, tag = .dualize a b := by
  rw [dualize] at h
  split at h
  · cases h
  · cases m with
    | traditional =>
      cases h
      refine ⟨rfl, ?_, _, rfl, _, _, rfl⟩
      simp only [List.length_drop, setEoms_length, List.length_append, List.length_map]
      omega
    | diffyg =>
      dsimp only at h
      split at h
      · cases h
      · obtain ⟨_, -, h⟩ := bind_ok h
        obtain ⟨_, -, h⟩ := bind_ok h
        obtain ⟨_, h1, h⟩ := bind_ok h
        cases h1
        cases h
        refine ⟨rfl, ?_, _, rfl, _, _, rfl⟩
        simp
    | other =>
      cases h
      refine ⟨rfl, ?_, _, rfl, _, _, rfl⟩
      simp

theorem control_sizes {S : Sympy} {m : Method} {ctl : Step} (hc : ctl = .algebraic ∨ ctl = .differential m) {q q1 : Prob}
    (h : ctl.run S q = .ok q1) : q1.quads = q.quads ∧ q1.coparameters = q.coparameters := by
  rcases hc with rfl | rfl
  · change algebraicControl S q = _ at h
    rw [algebraicControl] at h
    split at h
    · cases h
    · split at h
      · cases h
      · obtain ⟨law, -, h⟩ := bind_ok h
        cases h
        exact ⟨rfl, rfl⟩
  · change differentialControl S m q = _ at h
    cases m with
    | traditional =>
      obtain ⟨-, -, H, udot, -, -, e⟩ := differential_traditional h
      rw [e]
      exact ⟨rfl, rfl⟩
    | diffyg =>
      obtain ⟨-, -, H, udot, chi, -, -, -, -, e⟩ := differential_diffyg h
      rw [e]
      exact ⟨rfl, rfl⟩
    | other =>
      rw [differentialControl] at h
      split at h
      · cases h
      · split at h
        · cases h
        · obtain ⟨_, -, h⟩ := bind_ok h
          obtain ⟨_, -, h⟩ := bind_ok h
          obtain ⟨_, -, h⟩ := bind_ok h
          cases h

/-! ### The quadratures are handed through -/

section
variable {K : Type} [Field K] [LinearOrder K] {S : Sympy} {O : TrigOps K} {rule : List K → List K → K} {I : Interp K}

theorem invTag_q {p p' : Prob} {tag : MapTag} {s s' : Sol K} (h : invTag O rule I p p' tag s = .ok s') : s'.q = s.q := by
    cases tag with
    | identity => cases h; rfl
    | momentumShift idx =>
      obtain ⟨_, -, h⟩ := bind_ok h
      obtain ⟨_, -, h⟩ := bind_ok h
      obtain ⟨_, -, h⟩ := bind_ok h
      obtain ⟨_, -, h⟩ := bind_ok h
      cases h; rfl
    | epsTrig idx lo hi ind st ps cs =>
      change epsInv _ _ s = _ at h
      rw [epsInv] at h
      split at h
      · split at h
        · cases h; rfl
        · cases h
      · obtain ⟨_, -, h⟩ := bind_ok h
        cases h; rfl
    | dualize a b =>
      obtain ⟨_, -, h⟩ := bind_ok h
      cases h; rfl
    | algebraic =>
      obtain ⟨_, -, h⟩ := bind_ok h
      cases h; rfl
    | differential idxs =>
      obtain ⟨_, -, h⟩ := bind_ok h
      obtain ⟨_, -, h⟩ := bind_ok h
      cases h; rfl
    | differentialDiffyG idxs =>
      obtain ⟨_, -, h⟩ := bind_ok h
      obtain ⟨_, -, h⟩ := bind_ok h
      obtain ⟨_, -, h⟩ := bind_ok h
      cases h; rfl
    | mf => cases h
    | squash a b c d e f =>
      obtain ⟨_, -, h⟩ := bind_ok h
      obtain ⟨_, -, h⟩ := bind_ok h
      cases h; rfl
    | normalizeTime idx =>
      obtain ⟨_, -, h⟩ := bind_ok h
      cases h; rfl

theorem invTags_q {p p' : Prob} : ∀ {tags : List MapTag} {s s' : Sol K}, invTags O rule I p p' tags s = .ok s' → s'.q = s.q
  | [], s, s', h => by cases h; rfl
  | tag :: tags, s, s', h => by
    obtain ⟨s1, h1, h⟩ := bind_ok h
    rw [invTag_q h, invTags_q h1]

theorem invSteps_q : ∀ {steps : List Step} {p : Prob} {s s' : Sol K}, invSteps S O rule I steps p s = .ok s' → s'.q = s.q
  | [], p, s, s', h => by cases h; rfl
  | step :: steps, p, s, s', h => by
    obtain ⟨p1, -, h⟩ := bind_ok h
    obtain ⟨s1, h1, h⟩ := bind_ok h
    rw [invTags_q h, invSteps_q h1]

omit [LinearOrder K] in
/-- With a row of quadratures of the wrong length there is no cost. -/
theorem computeCost_wrong {q : Prob} {t : List K} {y a u : Arr K} {pr k : List K} {T c : Nat} (ha : a.Shape T c) (hT : 0 < T)
    (hc : c ≠ q.quads.length) {v : K} : Rep.computeCost rule I q t y a u pr k ≠ .ok v := by
  intro h
  rw [Rep.computeCost] at h
  obtain ⟨y0, -, h⟩ := bind_ok h
  obtain ⟨q0, h0, h⟩ := bind_ok h
  obtain ⟨c0, h1, -⟩ := bind_ok h
  obtain ⟨r, rfl, hr, hw⟩ := ha
  have hl : (Arr.rows c r).len > 0 := by simp only [Arr.len, Arr.rowList]; omega
  rw [Rep.quadRow, if_pos hl] at h0
  cases r with
  | nil => simp at hr; omega
  | cons x r =>
    cases h0
    rw [lambdify] at h1
    obtain ⟨env, h2, -⟩ := bind_ok h1
    rw [Rep.bcArgs, bindArgs] at h2
    split at h2
    · cases h2
    · obtain ⟨rest, h3, -⟩ := bind_ok h2
      rw [bindArgs, if_pos] at h3
      · cases h3
      · rw [hw q0 (by simp)]
        simp only [qds, List.length_map]
        exact fun e => hc e.symm

end

/-! ### Property -/

/-- Whatever the options, the problem and sympy are: if the problem has parameters, no trajectory of the generated boundary value
problem can be mapped back, the mappers raise.  The costates of the parameters are integrated as quadratures and stay in
the table of quadratures (trajectory_mappers.py:361-366), where `compute_cost` expects the user's. -/
theorem C78_violated_parameters {S : Sympy} {o : Opts} {p Q : Prob} (h : indirect S o p = .ok Q) (hp : p.parameters ≠ [])
    {K : Type} [Field K] [LinearOrder K] (O : TrigOps K) (rule : List K → List K → K) (I : Interp K) {s : Sol K} (ht : s.t ≠ [])
    (hq : s.q.Shape s.t.length Q.quads.length) : ∃ e, invIndirect S O rule I o p s = .error e := by
  obtain ⟨p1, p2, p3, q, q1, q2, q3, q4, ineq, ctl, hr⟩ := indirect_run h
  have hpar : q.parameters = p.parameters := by
    have e1 := (blind_preprocess p p1 [] [] hr.pre).1
    have e2 := (blind_runSteps (S := S) (ss := if o.momentumShift then [.momentumShift] else []) (by
      intro s hs
      split at hs
      · simp only [List.mem_singleton] at hs
        subst hs
        exact blind_momentumShift
      · cases hs) p1 p2 [] [] hr.shift).1
    have e3 := (blind_runSteps (S := S) (ss := ineq) (by
      intro s hs
      rcases Sym.ineqSteps_mem hr.ineqs s hs with rfl | rfl
      · exact blind_epsTrig
      · exact blind_utm) p2 p3 [] [] hr.regular).1
    have e4 := (blind_runSteps (S := S) (ss := if p1.switches.length > 0 then [.rashs] else []) (by
      intro s hs
      split at hs
      · simp only [List.mem_singleton] at hs
        subst hs
        exact blind_rashs
      · cases hs) p3 q [] [] hr.switches).1
    rw [e4, e3, e2, e1]
  obtain ⟨d1, d2, tag, d3, a, b, rfl⟩ := dualize_sizes hr.dual
  obtain ⟨c1, c2⟩ := control_sizes (m := o.method) (hr.method.imp And.left And.left) hr.control
  have t1 : q3.quads = q2.quads ∧ q3.coparameters = q2.coparameters := by
    have := hr.time
    split at this
    · rw [runSteps_cons] at this
      obtain ⟨q', h1, h2⟩ := bind_ok this
      cases h2
      rw [normalizeTime_ok h1]
      exact ⟨rfl, rfl⟩
    · cases this
      exact ⟨rfl, rfl⟩
  have s1 : q4.quads = q3.quads ++ q3.coparameters := by
    have := hr.squash
    cases this
    rfl
  have j1 : Q.quads = q4.quads := by
    have := hr.jac
    split at this
    · rw [runSteps_cons] at this
      obtain ⟨q', h1, h2⟩ := bind_ok this
      cases h2
      rw [(jacobians_fields h1).2.2.2.2.2]
    · cases this
      rfl
  have hne : Q.quads.length ≠ q.quads.length := by
    rw [j1, s1, List.length_append, t1.1, t1.2, c1, c2, d1]
    have := List.length_pos_iff.2 hp
    rw [hpar] at d2
    omega
  cases hx : invIndirect S O rule I o p s with
  | error e => exact ⟨e, rfl⟩
  | ok s' =>
    exfalso
    rw [invIndirect, hr.pre, ok_bind', hr.steps, ok_bind', invSteps_append' hr.shift] at hx
    obtain ⟨s1, hx, -⟩ := bind_ok hx
    rw [invSteps_append' hr.regular] at hx
    obtain ⟨s2, hx, -⟩ := bind_ok hx
    rw [invSteps_append' hr.switches] at hx
    obtain ⟨s3, hx, -⟩ := bind_ok hx
    rw [invSteps] at hx
    obtain ⟨q1', hd, hx⟩ := bind_ok hx
    have hd : dualize S o.method q = .ok q1' := hd
    rw [hr.dual] at hd
    cases hd
    obtain ⟨s4, hx1, hx⟩ := bind_ok hx
    rw [newTags, d3, List.drop_left' rfl, invTags, invTags, ok_bind', invTag] at hx
    obtain ⟨v, hx, -⟩ := bind_ok hx
    rw [invSteps_q hx1] at hx
    exact computeCost_wrong hq (List.length_pos_iff.2 ht) hne hx

/-- The problem with a parameter of `C78_violated`. -/
example : ∃ e, invIndirect exT exOps (fun _ _ => 0) exInterp Opt.exO exPp exSolQ = .error e :=
  C78_violated_parameters exQp_ok (by decide) _ _ _ (by decide) (by decide +kernel)

end Beluga.Scope
