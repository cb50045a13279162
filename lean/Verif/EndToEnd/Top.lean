import Verif.EndToEnd.Pass
import Verif.Solve.Model
import Verif.Continuation.Keeps

/-!
# The whole of `beluga.solve`: what it returns (C77)

The pieces are put together as in beluga.py:132-202: the problem is preprocessed and transformed, the guess goes through the
continuation, every solver call is one of `Shooting` or `SPBVP`, and every solution is mapped back.
-/

namespace Beluga.E2E

open Beluga.Sym Beluga.Sym.Expr Beluga.Num Beluga.Map Beluga.Opt Beluga.Rep
open Beluga.Shoot (Ivp IvpSound Complete NormSound Guess lastT Scipy Result)
open Beluga.Traj (Curve Simpson)

/-! ### Model -/

/-- The boundary value problem with what is needed to map solutions back: the preprocessed problem and the functors that were
applied to it (beluga.py:134-149, symbolic_problem.py:324-337). -/
structure Bvp where
  ocp : Prob
  steps : List Step
  prob : Prob

/-- The arguments of `solve` and the libraries. -/
structure Config where
  sympy : Sympy
  trig : TrigOps ℝ
  rule : List ℝ → List ℝ → ℝ
  functions : Name → Nat → ℝ → ℝ
  opts : Opts
  solver : Solver
  log : LogOps ℝ
  /-- How many solutions a step may have before the model gives up. -/
  fuel : Nat
  steps : Option (List (Cont.Strat ℝ (Sol ℝ)))
  /-- With `autoscale`, the units from which the scale factors are computed. -/
  units : Option Units := none

/-- `self.method.lower()` (mapping_functions.py:354-357, 451-499). -/
def methodOf (s : String) : Method :=
  if s.toLower = "traditional" then .traditional else if s.toLower = "diffyg" then .diffyg else .other

/-- `make_indirect_method(ocp, method=method, **optim_options)(ocp)` (beluga.py:140-141). -/
def makeIndirect (S : Sympy) (o : Opts) (ocp : Prob) (method : String) : Py Bvp := do
  let steps ← indirectSteps { o with method := methodOf method } ocp
  let p ← runSteps S steps ocp
  .ok ⟨ocp, steps, p⟩

/-- A trajectory as the continuation sees it. -/
def toTraj (s : Sol ℝ) : Cont.Traj ℝ (Sol ℝ) := ⟨s.const, s.converged, s⟩

/-- The trajectory with the constants that the continuation has set. -/
def ofTraj (t : Cont.Traj ℝ (Sol ℝ)) : Sol ℝ := { t.data with const := t.const, converged := t.converged }

/-- A solver call of the continuation (continuation.py:531-542, 575-585).  That the fuel of the solver ran
out is an exception here, so that nothing is claimed for it.  The residual that is computed for the log (586-600) is left out. -/
noncomputable def pass (c : Config) (p : Prob) (_ : Nat) (t : Cont.Traj ℝ (Sol ℝ)) : Py (Cont.Traj ℝ (Sol ℝ)) := do
  match ← solvePass c.solver c.functions p c.units (ofTraj t) with
  | some r => .ok (toTraj r)
  | none => .error .runtimeError

/-- `run_continuation_set(bvp_algorithm, steps, solinit, bvp, pool, autoscale)` (beluga.py:181).  A step that does not end within
`fuel` solutions is an exception here, so that nothing is claimed for it. -/
noncomputable def runSet (c : Config) (b : Bvp) (s : Sol ℝ) : Py (List (List (Sol ℝ))) :=
  match Cont.runContinuationSet c.log (pass c b.prob) b.prob.constants c.fuel c.steps (toTraj s) with
  | .returned l => .ok (l.map fun l => l.map ofTraj)
  | .raised e => .error e
  | .running => .error .runtimeError

/-- What `solve` calls: the parts that matter for what is returned are those of the code; the guess generator, the helper for
constants, the controls of the guess, the direct method and the result file are those of `w`. -/
noncomputable def world (c : Config) (w : Solve.World Prob Bvp (Sol ℝ)) : Solve.World Prob Bvp (Sol ℝ) :=
  { w with
    preprocess := preprocess
    indirect := makeIndirect c.sympy c.opts
    postprocess := .ok
    invOf := fun b => invSteps c.sympy c.trig c.rule (real c.functions) b.steps b.ocp
    run := runSet c }

/-! ### Specification -/

/-- A trajectory with which a continuation of `p` can begin. -/
structure Fit (R : Solver) (p : Prob) (s : Sol ℝ) : Prop where
  shape : R.Starts p.states.length s
  const : s.const.length = p.constants.length

/-- The trajectories that `solve` may hand to the continuation. -/
def Handed (w : Solve.World Prob Bvp (Sol ℝ)) (a : Solve.Args Prob Bvp (Sol ℝ)) (p : Prob) (b : Bvp) (s : Sol ℝ) : Prop :=
  ∃ f inv s0 s1, Solve.prepare w a p = .ok (b, f, inv) ∧ w.generate b f inv = .ok s0 ∧
    Solve.help w a.initialHelper p inv s0 = .ok s1 ∧ Solve.guessControls w b s1 = .ok s

/-- There is a list of solutions for every step; its last solution is converged, and has the constants of the step at their
targets and the other constants as at the end of the step before. -/
def Reaches (names : List Name) : List (List (Name × ℝ)) → List ℝ → List (List (Sol ℝ)) → Prop
  | [], _, out => out = []
  | T :: Ts, k, out => ∃ l rest last, out = l :: rest ∧ l.getLast? = some last ∧ last.converged = true ∧
      Cont.AtTarget names T k last.const ∧ Reaches names Ts last.const rest

/-- Every guess is the start `s`, or the result of an earlier call, with other constants. -/
def Warm (s : Sol ℝ) (calls : List (Sol ℝ × Sol ℝ)) : Prop :=
  ∀ pre x post, calls = pre ++ x :: post →
    ∃ d ∈ s :: pre.map Prod.snd, x.1 = { d with const := x.1.const, converged := x.1.converged }

/-- A step for which `C02_target_reached_partial` holds. -/
structure Plainly (s : Cont.Strat ℝ (Sol ℝ)) : Prop where
  keys : (s.vars.map Prod.fst).Nodup
  kind : s.kind = .manual ∨ s.kind = .bisection
  spacing : s.spacing = .linear
  cases : 2 ≤ s.numCases
  divisions : s.kind = .bisection → 1 ≤ s.numDivisions

/-! ### Lemmas -/

variable {U : Name → Nat → ℝ → ℝ}

/-- What a solver call returns is a guess again. -/
theorem shootSol_guess {R : Shooter} (hR : R.Ok) {p : Prob} {s r : Sol ℝ} {nO : Nat}
    (hG : Guess nO 0 (toCurve s)) (h : shootSol R U p s = .ok (some r)) : Guess nO 0 (toCurve r) ∧ r.const = s.const ∧
      r.q = .empty := by
  obtain ⟨r, hr, h⟩ := bind_ok h
  cases r with
  | none => cases h
  | some r =>
    cases h
    obtain ⟨gs, x0, f, ⟨arcs, p', pn'⟩, m, hgs, hx, hf, ho, hm, rfl⟩ := Shoot.solve_ok hG hr
    have he : Shoot.effective (shootEnv R.ivp R.simpson U p s.const).quad 0 = 0 := by simp [Shoot.effective]
    obtain ⟨h1, -, -⟩ := Shoot.shoot_spec (E := shootEnv R.ivp R.simpson U p s.const) hR.ivp rfl hG one_pos
      (Shoot.makeArcs_arcs hG one_pos hgs) ho
    have hfl := h1.flight hR.ivp hR.complete hG one_pos
    obtain ⟨a, rfl⟩ := List.length_eq_one_iff.1 hfl.length
    obtain ⟨g, hg, fg⟩ := hfl.arc 0 one_pos
    simp only [List.getElem?_cons_zero, Option.some.injEq] at hg
    subst hg
    have ht : Shoot.stitch ([a].map fun a : Curve ℝ => a.t) = a.t := by simp [Shoot.stitch]
    have hy : Shoot.stitch ([a].map fun a : Curve ℝ => Shoot.rows a.y) = Shoot.rows a.y := by simp [Shoot.stitch]
    have hqq : Shoot.stitch ([a].map fun a : Curve ℝ => Shoot.rows a.q) = [] := by
      have := fg.q
      rw [he, if_pos rfl] at this
      simp [Shoot.stitch, this, Shoot.rows]
    have hpos : 0 < (Shoot.rows a.y).length := by rw [fg.ylen]; have := fg.two; omega
    have hyo : toArr (ofRows (Shoot.rows a.y)) = .mat nO (Shoot.rows a.y) := by
      cases hr : Shoot.rows a.y with
      | nil => rw [hr] at hpos; simp at hpos
      | cons x l =>
        rw [ofRows, toArr, fg.ywidth x (by rw [hr]; simp)]
    rw [fromResult, ht, hy, hqq]
    refine ⟨⟨fg.times, fg.two, ⟨Shoot.rows a.y, hyo, ?_⟩, Or.inl ⟨rfl, rfl⟩, Or.inl rfl⟩, rfl, rfl⟩
    change Traj.Fits a.t.length (toArr (ofRows (Shoot.rows a.y)))
    rw [hyo]
    exact ⟨fg.ylen, fg.ywidth⟩

/-- What a solver call returns can be used as a guess again. -/
theorem solveSol_starts {R : Solver} (hR : R.Ok) {p : Prob} {s r : Sol ℝ} {nO : Nat} (hG : R.Starts nO s)
    (h : solveSol R U p s = .ok (some r)) : R.Starts nO r ∧ r.const = s.const := by
  cases R with
  | shooting R =>
    obtain ⟨h1, h2, -⟩ := shootSol_guess hR hG h
    exact ⟨h1, h2⟩
  | collocation C =>
    obtain ⟨ys, h1, h2, h3, h4, h5, -, -, h8, h9, -⟩ := collocSol_ok hR (Solver.Starts.bare hG) h
    refine ⟨⟨h4, h5, ⟨ys, by rw [h1]; rfl, ?_⟩, Or.inr ⟨ys.map fun _ => [], by rw [h8]; rfl, ?_⟩, Or.inl rfl⟩, h9⟩
    · dsimp only
      rw [h1]
      exact ⟨h2, h3⟩
    · dsimp only
      rw [h8]
      exact ⟨by simpa using h2, by simp⟩

/-- `inv_map` leaves the constants and the flag. -/
theorem invTag_keeps {O : TrigOps ℝ} {rule : List ℝ → List ℝ → ℝ} {I : Interp ℝ} {p p1 : Prob} {tag : MapTag} {s s' : Sol ℝ}
    (h : invTag O rule I p p1 tag s = .ok s') : s'.const = s.const ∧ s'.converged = s.converged := by
  cases tag with
  | identity => cases h; exact ⟨rfl, rfl⟩
  | momentumShift idx =>
    obtain ⟨_, -, h⟩ := bind_ok h
    obtain ⟨_, -, h⟩ := bind_ok h
    obtain ⟨_, -, h⟩ := bind_ok h
    obtain ⟨_, -, h⟩ := bind_ok h
    cases h; exact ⟨rfl, rfl⟩
  | epsTrig idx lo hi ind st ps cs =>
    have h : epsInv idx _ s = .ok s' := h
    unfold epsInv at h
    split at h
    · split at h
      · cases h; exact ⟨rfl, rfl⟩
      · cases h
    · obtain ⟨_, -, h⟩ := bind_ok h
      cases h; exact ⟨rfl, rfl⟩
  | dualize a b =>
    obtain ⟨_, -, h⟩ := bind_ok h
    cases h; exact ⟨rfl, rfl⟩
  | algebraic =>
    obtain ⟨_, -, h⟩ := bind_ok h
    cases h; exact ⟨rfl, rfl⟩
  | differential idxs =>
    obtain ⟨_, -, h⟩ := bind_ok h
    obtain ⟨_, -, h⟩ := bind_ok h
    cases h; exact ⟨rfl, rfl⟩
  | differentialDiffyG idxs =>
    obtain ⟨_, -, h⟩ := bind_ok h
    obtain ⟨_, -, h⟩ := bind_ok h
    obtain ⟨_, -, h⟩ := bind_ok h
    cases h; exact ⟨rfl, rfl⟩
  | mf => cases h
  | squash a b c d e f =>
    obtain ⟨_, -, h⟩ := bind_ok h
    obtain ⟨_, -, h⟩ := bind_ok h
    cases h; exact ⟨rfl, rfl⟩
  | normalizeTime idx =>
    obtain ⟨_, -, h⟩ := bind_ok h
    cases h; exact ⟨rfl, rfl⟩

theorem invTags_keeps {O : TrigOps ℝ} {rule : List ℝ → List ℝ → ℝ} {I : Interp ℝ} {p p1 : Prob} :
    ∀ {tags : List MapTag} {s s' : Sol ℝ}, invTags O rule I p p1 tags s = .ok s' →
      s'.const = s.const ∧ s'.converged = s.converged
  | [], s, s', h => by cases h; exact ⟨rfl, rfl⟩
  | tag :: tags, s, s', h => by
    obtain ⟨s1, h1, h⟩ := bind_ok h
    obtain ⟨e1, e2⟩ := invTags_keeps h1
    obtain ⟨e3, e4⟩ := invTag_keeps h
    exact ⟨e3.trans e1, e4.trans e2⟩

theorem invSteps_keeps {S : Sympy} {O : TrigOps ℝ} {rule : List ℝ → List ℝ → ℝ} {I : Interp ℝ} :
    ∀ {steps : List Step} {p : Prob} {s s' : Sol ℝ}, invSteps S O rule I steps p s = .ok s' →
      s'.const = s.const ∧ s'.converged = s.converged
  | [], p, s, s', h => by cases h; exact ⟨rfl, rfl⟩
  | step :: steps, p, s, s', h => by
    obtain ⟨p1, -, h⟩ := bind_ok h
    obtain ⟨s1, h1, h⟩ := bind_ok h
    obtain ⟨e1, e2⟩ := invSteps_keeps h1
    obtain ⟨e3, e4⟩ := invTags_keeps h
    exact ⟨e3.trans e1, e4.trans e2⟩

/-- The functors do not change the constants of a stated problem. -/
theorem indirect_constants {S : Sympy} (hL : LuSound S) {o : Opts} {p p' q : Prob} (hp : Stated p) (hm : o.momentumShift = true)
    (hd : o.method ≠ .other) (h : indirect S o p = .ok p') (hprimal : primal S p = .ok q) : p'.constants = p.constants := by
  obtain ⟨p1, g1, h⟩ := bind_ok h
  obtain ⟨steps, g2, h⟩ := bind_ok h
  obtain ⟨ineq, ctl, hineq, hctl, rfl⟩ := indirectSteps_ok g2
  have hsplit : (if o.momentumShift then [Step.momentumShift] else []) ++ ineq ++
        (if p1.switches.length > 0 then [.rashs] else []) ++ [.dualize o.method, ctl] ++
        (if o.normalizeTime then [.normalizeTime] else []) ++ [.squash] ++
        (if o.analyticalJacobian && o.controlMethod ≠ .algebraic then [.jacobians] else []) =
      (.momentumShift :: (ineq ++ if p1.switches.length > 0 then [.rashs] else [])) ++
        ([.dualize o.method, ctl] ++ (if o.normalizeTime then [.normalizeTime] else []) ++ [.squash] ++
        (if o.analyticalJacobian && o.controlMethod ≠ .algebraic then [.jacobians] else [])) := by
    rw [if_pos hm]
    simp
  rw [hsplit, runSteps_append] at h
  obtain ⟨q', hq, h⟩ := bind_ok h
  have e : primal S p = .ok q' := by
    rw [primal, g1]
    change (ineqSteps _ >>= _) = _
    rw [hineq]
    exact hq
  rw [hprimal] at e
  cases e
  obtain ⟨p3, f, f2, f3, hf⟩ := front hp hprimal
  obtain ⟨-, m2, -⟩ := dual_more hL (hf.clean hp) hd (hctl.imp And.left And.left) h
  rw [m2, (front_inv (U := fun _ _ => id) (O := ⟨Real.sin, Real.arcsin⟩) (rule := fun _ _ => 0) rfl hp g1 hineq hq).1]

theorem pass_ok {c : Config} {p : Prob} {n : Nat} {g sol : Cont.Traj ℝ (Sol ℝ)} (h : pass c p n g = .ok sol) :
    sol = toTraj sol.data ∧ solvePass c.solver c.functions p c.units (ofTraj g) = .ok (some sol.data) := by
  obtain ⟨r, h1, h⟩ := bind_ok h
  cases r with
  | none => cases h
  | some r =>
    cases h
    exact ⟨rfl, h1⟩

/-- What is kept by a call of the solver. -/
def Keeps (c : Config) (p : Prob) (nO N : Nat) (Good : Sol ℝ → Prop) : Prop :=
  ∀ g r, Good g → c.solver.Starts nO g → g.const.length = N →
    solvePass c.solver c.functions p c.units g = .ok (some r) → c.solver.Starts nO r ∧ r.const = g.const

theorem keeps_plain {c : Config} (hR : c.solver.Ok) (hun : c.units = none) {p : Prob} {nO N : Nat} :
    Keeps c p nO N fun _ => True := by
  intro g r _ hG _ h
  rw [hun] at h
  exact solveSol_starts hR hG h

theorem runSet_chain {c : Config} {b : Bvp} {ss : List (Cont.Strat ℝ (Sol ℝ))} (hs : c.steps = some ss) {s : Sol ℝ}
    {set : List (List (Sol ℝ))} (h : runSet c b s = .ok set) :
    ∃ trs, Cont.Chain c.log (pass c b.prob) b.prob.constants 0 (toTraj s) ss trs ∧
      set = trs.map fun tr => tr.map fun x => ofTraj x.2 := by
  unfold runSet at h
  split at h
  · next l hl =>
    cases h
    rw [hs] at hl
    obtain ⟨trs, h1, h2, -⟩ := Cont.C15_chained c.fuel ss (toTraj s) l hl
    refine ⟨trs, h1, ?_⟩
    rw [h2]
    simp [Function.comp_def]
  · cases h
  · cases h

theorem chain_reaches {L : LogOps ℝ} {solve : Nat → Cont.Traj ℝ (Sol ℝ) → Py (Cont.Traj ℝ (Sol ℝ))} (hk : Cont.KeepsConst solve)
    {names : List Name} (hnd : names.Nodup) {n : Nat} {g : Cont.Traj ℝ (Sol ℝ)}
    {ss : List (Cont.Strat ℝ (Sol ℝ))} {trs : List (List (Cont.Traj ℝ (Sol ℝ) × Cont.Traj ℝ (Sol ℝ)))}
    (h : Cont.Chain L solve names n g ss trs) (hlen : names.length = g.const.length)
    (hss : ∀ s ∈ ss, Plainly s) :
    Reaches names (ss.map Cont.Strat.targets) g.const (trs.map fun tr => tr.map fun x => ofTraj x.2) := by
  induction ss generalizing n g trs with
  | nil =>
    cases h
    rfl
  | cons s ss ih =>
    cases trs with
    | nil => cases h
    | cons tr trs =>
      have hs := hss s (List.mem_cons_self ..)
      obtain ⟨last, h1, h2, h3, h4⟩ := Cont.C15_chain_targets hk hnd hlen hs.keys hs.kind hs.spacing hs.cases hs.divisions h
      refine ⟨_, _, ofTraj last, rfl, ?_, h2, h3, ?_⟩
      · change (tr.map fun x => ofTraj x.2).getLast? = _
        rw [show (tr.map fun x => ofTraj x.2) = (tr.map Prod.snd).map ofTraj by simp, List.getLast?_map, h1]
        rfl
      · exact ih h4 (hlen.trans h3.1.symm) fun s hs => hss s (List.mem_cons_of_mem _ hs)

/-- Every solution of the set is the answer of the solver to a guess; if all guesses are good, they have the right shape and the
targets of the steps are reached. -/
theorem runSet_calls {c : Config} {b : Bvp} {s : Sol ℝ} {set : List (List (Sol ℝ))} (h : runSet c b s = .ok set) :
    ∃ calls, set = calls.map (fun l => l.map Prod.snd) ∧ Warm s calls.flatten ∧ (c.steps = none → ∃ r, calls = [[(s, r)]]) ∧
      (∀ l ∈ calls, ∀ x ∈ l, solvePass c.solver c.functions b.prob c.units x.1 = .ok (some x.2)) ∧
      ∀ nO N Good, Keeps c b.prob nO N Good → (∀ l ∈ calls, ∀ x ∈ l, Good x.1) → c.solver.Starts nO s → s.const.length = N →
        (∀ l ∈ calls, ∀ x ∈ l, c.solver.Starts nO x.1 ∧ x.2.const = x.1.const) ∧
        ∀ ss, c.steps = some ss → N = b.prob.constants.length → b.prob.constants.Nodup → (∀ s ∈ ss, Plainly s) →
          Reaches b.prob.constants (ss.map Cont.Strat.targets) s.const set := by
  cases hs : c.steps with
  | none =>
    unfold runSet at h
    rw [hs] at h
    split at h
    · next l hl =>
      cases h
      unfold Cont.runContinuationSet at hl
      dsimp only at hl
      split at hl
      · cases hl
      · next sol hsol =>
        cases hl
        obtain ⟨h2, h4⟩ := pass_ok hsol
        refine ⟨[[(s, ofTraj sol)]], rfl, ?_, fun _ => ⟨_, rfl⟩, ?_, ?_⟩
        · intro pre x post hp
          cases pre with
          | nil =>
            cases hp
            exact ⟨s, List.mem_cons_self .., rfl⟩
          | cons y pre => simp at hp
        · intro l hl x hx
          simp only [List.mem_singleton] at hl
          subst hl
          simp only [List.mem_singleton] at hx
          subst hx
          rw [h2]
          exact h4
        · intro nO N Good hk hgood hG hN
          refine ⟨?_, by simp⟩
          intro l hl x hx
          have hg := hgood l hl x hx
          simp only [List.mem_singleton] at hl
          subst hl
          simp only [List.mem_singleton] at hx
          subst hx
          obtain ⟨-, h3⟩ := hk s sol.data hg hG hN h4
          refine ⟨hG, ?_⟩
          rw [h2]
          exact h3
    · cases h
    · cases h
  | some ss =>
    obtain ⟨trs, h1, rfl⟩ := runSet_chain hs h
    have key := Cont.chain_keeps (P := fun _ => True) (fun _ _ _ _ _ => trivial) h1 trivial
    have hdata : ∀ l ∈ trs, ∀ x ∈ l, ofTraj x.2 = x.2.data := by
      intro l hl x hx
      obtain ⟨-, -, m, k3⟩ := key l hl x hx
      rw [(pass_ok k3).1]
      rfl
    refine ⟨trs.map fun tr => tr.map fun x => (ofTraj x.1, ofTraj x.2), ?_, ?_, by simp, ?_, ?_⟩
    · simp [Function.comp_def]
    · intro pre x post hp
      rw [← List.map_flatten, List.map_eq_append_iff] at hp
      obtain ⟨pre', rest, hp, rfl, hr⟩ := hp
      obtain ⟨x', post', rfl, rfl, rfl⟩ := List.map_eq_cons_iff.1 hr
      have := Cont.chain_warm h1 pre' x' post' hp
      refine ⟨x'.1.data, ?_, rfl⟩
      rw [List.mem_cons] at this ⊢
      refine this.imp (fun h => h) fun h => ?_
      obtain ⟨z, hz, e⟩ := List.mem_map.1 h
      rw [← e, List.map_map]
      refine List.mem_map.2 ⟨z, hz, ?_⟩
      obtain ⟨tr, htr, hz'⟩ := List.mem_flatten.1 (show z ∈ trs.flatten by rw [hp]; simp [hz])
      exact hdata tr htr z hz'
    · intro l hl x hx
      obtain ⟨tr, htr, rfl⟩ := List.mem_map.1 hl
      obtain ⟨x, hx', rfl⟩ := List.mem_map.1 hx
      obtain ⟨-, -, m, k3⟩ := key tr htr x hx'
      rw [hdata tr htr x hx']
      exact (pass_ok k3).2
    · intro nO N Good hk hgood hG hN
      have hgood' : ∀ tr ∈ trs, ∀ x ∈ tr, Good (ofTraj x.1) := fun tr htr x hx =>
        hgood _ (List.mem_map.2 ⟨tr, htr, rfl⟩) _ (List.mem_map.2 ⟨x, hx, rfl⟩)
      have hstep : ∀ n g sol, Good (ofTraj g) → c.solver.Starts nO g.data ∧ g.const.length = N →
          pass c b.prob n g = .ok sol → (c.solver.Starts nO sol.data ∧ sol.const.length = N) ∧ sol.const = g.const := by
        intro n g sol hgd hg hp
        obtain ⟨e, hp⟩ := pass_ok hp
        obtain ⟨k1, k2⟩ := hk (ofTraj g) sol.data hgd hg.1 hg.2 hp
        have e' : sol.const = g.const := (congrArg Cont.Traj.const e).trans k2
        exact ⟨⟨k1, by rw [e']; exact hg.2⟩, e'⟩
      have inv := Cont.chain_inv (Good := fun g => Good (ofTraj g)) (I := fun g => c.solver.Starts nO g.data ∧ g.const.length = N)
        (fun _ h => h.2) (fun g k _ h hk => ⟨h.1, hk⟩) (fun n g sol h1 h2 h3 => (hstep n g sol h1 h2 h3).1) h1 hgood' ⟨hG, hN⟩
      refine ⟨?_, ?_⟩
      · intro l hl x hx
        obtain ⟨tr, htr, rfl⟩ := List.mem_map.1 hl
        obtain ⟨x, hx', rfl⟩ := List.mem_map.1 hx
        obtain ⟨-, -, m, k3⟩ := key tr htr x hx'
        have := (inv tr htr x hx').1
        exact ⟨this.1, (hstep m x.1 x.2 (hgood' tr htr x hx') this k3).2⟩
      · rintro ss' hss hNc hnd hpl
        cases hss
        classical
        let solve' : Nat → Cont.Traj ℝ (Sol ℝ) → Py (Cont.Traj ℝ (Sol ℝ)) := fun n g =>
          if Good (ofTraj g) ∧ c.solver.Starts nO g.data ∧ g.const.length = N then pass c b.prob n g else .error .runtimeError
        have hkc : Cont.KeepsConst solve' := by
          intro n g sol h
          by_cases hc : Good (ofTraj g) ∧ c.solver.Starts nO g.data ∧ g.const.length = N
          · have h : (if _ then _ else _) = _ := h
            rw [if_pos hc] at h
            exact (hstep n g sol hc.1 hc.2 h).2
          · have h : (if _ then _ else _) = _ := h
            rw [if_neg hc] at h
            cases h
        have hch : Cont.Chain c.log solve' b.prob.constants 0 (toTraj s) ss trs :=
          Cont.chain_congr h1 fun tr htr x hx m hm => by
            change (if _ then _ else _) = _
            rw [if_pos ⟨hgood' tr htr x hx, (inv tr htr x hx).1⟩]
            exact hm
        exact chain_reaches hkc hnd hch (by rw [← hNc, ← hN]; rfl) hpl

/-- The solutions may be mapped back. -/
theorem Reaches.map {names : List Name} {inv : Sol ℝ → Py (Sol ℝ)}
    (hinv : ∀ s s', inv s = .ok s' → s'.const = s.const ∧ s'.converged = s.converged) {Ts : List (List (Name × ℝ))} :
    ∀ {k : List ℝ} {set out : List (List (Sol ℝ))}, Reaches names Ts k set →
      List.Forall₂ (fun l l' => l.mapM inv = .ok l') set out → Reaches names Ts k out := by
  induction Ts with
  | nil =>
    intro k set out h h2
    cases h
    cases h2
    rfl
  | cons T Ts ih =>
    intro k set out h h2
    obtain ⟨l, rest, last, rfl, h1, hc, ha, hr⟩ := h
    cases h2 with
    | cons hl hrest =>
      rename_i l' rest'
      have hrel := mapM_rel hl
      obtain ⟨last', e1, e2⟩ : ∃ last', l'.getLast? = some last' ∧ inv last = .ok last' := by
        clear hl ha hr hrest hc
        induction hrel with
        | nil => cases h1
        | @cons a b l l' hab hrest ih =>
          cases hrest with
          | nil =>
            simp only [List.getLast?_singleton, Option.some.injEq] at h1 ⊢
            subst h1
            exact ⟨b, rfl, hab⟩
          | cons h3 h4 =>
            rw [List.getLast?_cons_cons] at h1 ⊢
            exact ih h1
      obtain ⟨k1, k2⟩ := hinv _ _ e2
      exact ⟨l', rest', last', rfl, e1, k2.trans hc, by rw [k1]; exact ha, by rw [k1]; exact ih hr hrest⟩

theorem forall₂_imp_mem {α β : Type} {R T : α → β → Prop} {l : List α} {l' : List β} (h : List.Forall₂ R l l')
    (hT : ∀ a ∈ l, ∀ b, R a b → T a b) : List.Forall₂ T l l' := by
  induction h with
  | nil => exact .nil
  | cons hab _ ih =>
    exact .cons (hT _ (List.mem_cons_self ..) _ hab) (ih fun a ha => hT a (List.mem_cons_of_mem _ ha))

/-- The value of `solve` is that of its main part, mapped back. -/
theorem solve_parts {w : Solve.World Prob Bvp (Sol ℝ)} {a : Solve.Args Prob Bvp (Sol ℝ)} {p : Prob} (ha : a.ocp = some p)
    {out : List (List (Sol ℝ))} (h : (Solve.solve w a).1 = .ok out) :
    ∃ b f inv s0 s1 s set, Solve.prepare w a p = .ok (b, f, inv) ∧ w.generate b f inv = .ok s0 ∧
      Solve.help w a.initialHelper p inv s0 = .ok s1 ∧ Solve.guessControls w b s1 = .ok s ∧ w.run b s = .ok set ∧
      (set.mapM fun l => l.mapM inv) = .ok out := by
  unfold Solve.solve at h
  split at h
  · cases h
  · dsimp only at h
    rw [ha] at h
    dsimp only at h
    split at h
    · cases h
    · next b inv set hm =>
      unfold Solve.main at hm
      obtain ⟨⟨b', f, inv'⟩, h1, hm⟩ := bind_ok hm
      obtain ⟨s0, h2, hm⟩ := bind_ok hm
      obtain ⟨s1, h3, hm⟩ := bind_ok hm
      obtain ⟨s, h4, hm⟩ := bind_ok hm
      obtain ⟨set', h5, hm⟩ := bind_ok hm
      cases hm
      refine ⟨b, f, inv, s0, s1, s, set, h1, h2, h3, h4, h5, ?_⟩
      split at h
      · cases h
      · next out' ho =>
        have : out' = out := by
          split at h
          · cases h; rfl
          · split at h
            · cases h
            · cases h; rfl
        subst this
        exact ho

/-- The four names of the two indirect methods. -/
theorem canonical_method {s : String} {m : Method} (h : s.toLower ∈ ["indirect", "traditional", "brysonho", "diffyg"])
    (hm : m = if s.toLower = "diffyg" then .diffyg else .traditional) :
    (Solve.canonical s).toLower ∈ ["traditional", "diffyg"] ∧ methodOf (Solve.canonical s) = m := by
  have ht : "traditional".toLower = "traditional" := by decide +kernel
  by_cases hs : s.toLower = "diffyg"
  · rw [if_pos hs] at hm
    rw [Solve.canonical, if_neg (by rw [hs]; decide), methodOf, hs, hm]
    exact ⟨by simp, by rw [if_neg (by decide), if_pos rfl]⟩
  · rw [if_neg hs] at hm
    rw [Solve.canonical, if_pos (by simp only [List.mem_cons, List.not_mem_nil, or_false] at h ⊢; tauto), methodOf, ht, hm]
    exact ⟨by simp, by rw [if_pos rfl]⟩

/-- The generated problem and the map back. -/
theorem prepare_world {c : Config} {w : Solve.World Prob Bvp (Sol ℝ)} {a : Solve.Args Prob Bvp (Sol ℝ)} {p : Prob}
    (hb : a.bvp = none) (hmeth : a.method.toLower ∈ ["indirect", "traditional", "brysonho", "diffyg"])
    (hd : c.opts.method = if a.method.toLower = "diffyg" then .diffyg else .traditional)
    {b : Bvp} {f inv : Solve.SolMap (Sol ℝ)} (h : Solve.prepare (world c w) a p = .ok (b, f, inv)) :
    indirect c.sympy c.opts p = .ok b.prob ∧ inv = invIndirect c.sympy c.trig c.rule (real c.functions) c.opts p := by
  unfold Solve.prepare at h
  rw [hb] at h
  dsimp only at h
  obtain ⟨p1, h1, h⟩ := bind_ok h
  obtain ⟨b1, h2, h⟩ := bind_ok h
  obtain ⟨b2, h3, h⟩ := bind_ok h
  cases h3
  cases h
  have h1 : preprocess p = .ok p1 := h1
  obtain ⟨k1, k2⟩ := canonical_method hmeth hd
  rw [Solve.dispatch, if_pos k1] at h2
  have h2 : makeIndirect c.sympy c.opts p1 (Solve.canonical a.method) = .ok b := h2
  have ho : { c.opts with method := methodOf (Solve.canonical a.method) } = c.opts := by rw [k2]
  rw [makeIndirect, ho] at h2
  obtain ⟨steps, h3, h2⟩ := bind_ok h2
  obtain ⟨p', h4, h2⟩ := bind_ok h2
  cases h2
  refine ⟨?_, ?_⟩
  · rw [indirect, h1, Num.ok_bind, h3, Num.ok_bind]
    exact h4
  · funext s
    rw [invIndirect, h1, Num.ok_bind, h3, Num.ok_bind]
    rfl

/-! ### Property -/

/-- Whatever `solve` returns for a stated problem (an indirect method, no autoscaling; `Shooting` with one arc and the
default algorithm, or `SPBVP`):

* if the continuation consists of manual and bisection steps, the last solution of every step is converged and has the constants
  of the step at their targets, the other constants being those of the step before (`Reaches`);
* the returned trajectories are, one by one, the results of the solver calls, mapped back; the first call starts from the guess
  and every later one from it or from a result before (`Warm`);
* each is the result for the constants that are reported with it; if it is flagged as converged, and the states that the solver
  returned are those of an exact solution `y` of the differential equations, then it consists of samples of a curve that satisfies
  the first-order necessary conditions of the stated problem up to the tolerance of the solver, and its cost is that of the stated
  problem plus the penalties.

The guess has to have the shape of the generated problem (`Fit`).

Missing from the full property: autoscaling (see `C77_autoscaled_partial`); everything that is missing from
`C80_call_partial` and `C15_chain_targets`. -/
theorem C77_solve_partial {c : Config} (hL : LuSound c.sympy) (hS : c.opts.controlMethod = .algebraic → SolveSound c.sympy)
    (hm : c.opts.momentumShift = true) (hR : c.solver.Ok) (hO : c.trig.sin = Real.sin) (hun : c.units = none)
    {w : Solve.World Prob Bvp (Sol ℝ)} {a : Solve.Args Prob Bvp (Sol ℝ)} {p : Prob} (hp : Stated p) (ha : a.ocp = some p)
    (hb : a.bvp = none) (hmeth : a.method.toLower ∈ ["indirect", "traditional", "brysonho", "diffyg"])
    (hd : c.opts.method = if a.method.toLower = "diffyg" then .diffyg else .traditional)
    (hfit : ∀ b s, Handed (world c w) a p b s → Fit c.solver b.prob s) {out : List (List (Sol ℝ))}
    (h : (Solve.solve (world c w) a).1 = .ok out) :
    ∃ b s q B calls, Handed (world c w) a p b s ∧ indirect c.sympy c.opts p = .ok b.prob ∧ primal c.sympy p = .ok q ∧
      Barriers B ∧
      (∀ ss, c.steps = some ss → (∀ s ∈ ss, Plainly s) → Reaches p.constants (ss.map Cont.Strat.targets) s.const out) ∧
      Warm s calls.flatten ∧ (c.steps = none → ∃ r, calls = [[(s, r)]]) ∧
      List.Forall₂ (List.Forall₂ fun (x : Sol ℝ × Sol ℝ) s' => c.solver.Starts b.prob.states.length x.1 ∧
        solvePass c.solver c.functions b.prob none x.1 = .ok (some x.2) ∧
        invIndirect c.sympy c.trig c.rule (real c.functions) c.opts p x.2 = .ok s' ∧ s'.const = x.1.const ∧
        s'.converged = x.2.converged ∧
        (s'.converged = true → (∀ d ∈ x.2.dyn, 0 < d) → ∀ Q, Completes c.functions p Q →
          ∀ y, x.2.y = .rows b.prob.states.length (x.2.t.map y) →
            Flows c.functions b.prob (x.1.t.getD 0 0) (lastT x.1.t) y x.2.dyn s'.const →
          ∀ ρ, Reads c.functions b.prob (x.1.t.getD 0 0) (lastT x.1.t) y x.2.dyn x.2.nondyn s'.const ρ →
            Regular c.sympy c.functions q b.prob (x.1.t.getD 0 0) (lastT x.1.t) ρ →
          ∃ t₀ e z lam ν₀ ν₁, 0 < e ∧
            NearExtremal (userOcp c.functions Q B p) c.solver.tol
              (if c.opts.controlMethod = .algebraic then 0 else c.solver.tol) t₀
              (t₀ + e * (lastT x.1.t - x.1.t.getD 0 0)) z lam ν₀ ν₁ ∧
            s'.t = x.2.t.map (fun τ => t₀ + e * (τ - x.1.t.getD 0 0)) ∧ Returned Q p z lam s' ∧
            (Rule c.rule → Shift c.rule →
              s'.cost = some (stated c.rule c.functions p s'.t (fun i => Q (z (s'.t.getD i 0))) +
                penalised c.rule B c.functions p s'.t fun i => Q (z (s'.t.getD i 0)))) ∧
            (c.opts.controlMethod = .algebraic → Least c.sympy c.functions q (userOcp c.functions Q B p) t₀
              (t₀ + e * (lastT x.1.t - x.1.t.getD 0 0)) z lam) ∧
            Drawn ρ (x.1.t.getD 0 0) t₀ e z lam ν₀ ν₁)) calls out := by
  obtain ⟨b, f, inv, s0, s1, s, set, h1, h2, h3, h4, h5, h6⟩ := solve_parts ha h
  have hand : Handed (world c w) a p b s := ⟨f, inv, s0, s1, h1, h2, h3, h4⟩
  obtain ⟨hG, hlen⟩ := hfit b s hand
  obtain ⟨e1, rfl⟩ := prepare_world hb hmeth hd h1
  have hd' : c.opts.method ≠ .other := by
    rw [hd]
    split <;> decide
  obtain ⟨q, B, hq, hB, key⟩ := C80_call_partial hL hp hm hd' hS e1
  have hks := indirect_constants hL hp hm hd' e1 hq
  have h5 : runSet c b s = .ok set := h5
  have hrel := mapM_rel h6
  have hinv : ∀ s s', invIndirect c.sympy c.trig c.rule (real c.functions) c.opts p s = .ok s' →
      s'.const = s.const ∧ s'.converged = s.converged := by
    intro s s' h
    obtain ⟨p1, -, h⟩ := bind_ok h
    obtain ⟨st, -, h⟩ := bind_ok h
    exact invSteps_keeps h
  obtain ⟨calls, hset, hwarm, hnone, hcalls, hkey⟩ := runSet_calls h5
  obtain ⟨hshape, hreach⟩ := hkey _ _ _ (keeps_plain hR hun) (fun _ _ _ _ => trivial) hG hlen
  refine ⟨b, s, q, B, calls, hand, e1, hq, hB, ?_, hwarm, hnone, ?_⟩
  · intro ss hss hpl
    have hnd : b.prob.constants.Nodup := by
      rw [hks]
      have := hp.names
      simp only [List.nodup_append] at this
      exact this.1.1.2.1
    have := (hreach ss hss rfl hnd hpl).map hinv hrel
    rw [hks] at this
    exact this
  · rw [hset, List.forall₂_map_left_iff] at hrel
    refine forall₂_imp_mem hrel fun l hl l' hll => ?_
    have hll := mapM_rel hll
    rw [List.forall₂_map_left_iff] at hll
    refine forall₂_imp_mem hll fun x hx s' hrs => ?_
    have k2 := hcalls l hl x hx
    rw [hun] at k2
    obtain ⟨k1, k3⟩ := hshape l hl x hx
    obtain ⟨i1, i2⟩ := hinv _ _ hrs
    refine ⟨k1, k2, hrs, i1.trans k3, i2, ?_⟩
    intro hc hpos Q hQ y hy hflow ρ hread hreg
    rw [i1, k3] at hflow hread
    rw [i2] at hc
    obtain ⟨g, r⟩ := x
    dsimp only at hy hpos hflow hread hreg hc hrs k1 k2 k3 ⊢
    obtain ⟨t₀, e, x, lam, ν₀, ν₁, m1, m2, m3, m4, -, m6, m7⟩ := key c.functions Q hQ c.trig c.rule hO c.solver g r hR k1 k2 hc hpos y hy
      hflow ρ hread hreg s' hrs
    exact ⟨t₀, e, x, lam, ν₀, ν₁, m1, m2, m3, m4, m6, m7⟩

end Beluga.E2E
