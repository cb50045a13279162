import Verif.EndToEnd.Scaled
import Verif.Bvp.Props

/-!
# What a solver call of `run_continuation_set` returns is an extremal up to the tolerance (C75)

The calls are continuation.py:531-542 (no steps) and continuation.py:575-585 (in a step).
-/

namespace Beluga.E2E

open Beluga.Sym Beluga.Sym.Expr Beluga.Num Beluga.Map Beluga.Opt Beluga.Rep
open Beluga.Shoot (Ivp IvpSound Complete NormSound Guess lastT Scipy Result)
open Beluga.Traj (Curve Simpson)

/-! ### Model -/

/-- A `Shooting` object: its integrator, the library functions that it uses, and its options (Shooting.py:186-204). -/
structure Shooter where
  ivp : Ivp ℝ
  simpson : Simpson ℝ
  scipy : Scipy ℝ
  norm : List ℝ → ℝ
  newton : List ℝ → List ℝ → Py (List ℝ)
  opts : Shoot.Opts ℝ
  alg : String
  fuel : Nat

/-- The same array in the model of `Trajectory`. -/
def toArr : Map.Arr ℝ → Traj.Arr ℝ
  | .empty => .vec []
  | .rows c r => .mat c r

/-- The parts of a trajectory that can be interpolated. -/
def toCurve (s : Sol ℝ) : Curve ℝ := ⟨s.t, toArr s.y, toArr s.q, toArr s.u⟩

/-- Rows as an array. -/
def ofRows : List (List ℝ) → Map.Arr ℝ
  | [] => .empty
  | x :: r => .rows x.length (x :: r)

/-- What `Shooting.solve` writes into the copy of its argument (Shooting.py:776-796).  `Propagator` leaves the controls of the
arcs empty. -/
def fromResult (s : Sol ℝ) (r : Result ℝ) : Sol ℝ :=
  { s with
    t := r.t, y := ofRows r.y, q := ofRows r.q, u := .empty, dyn := r.p, nondyn := r.pn, converged := r.converged }

/-- `bvp_algorithm_.solve(sol_guess)` with one arc, the default (continuation.py:539, 582).  `none` means that there was not
enough fuel. -/
noncomputable def shootSol (R : Shooter) (U : Name → Nat → ℝ → ℝ) (p : Prob) (s : Sol ℝ) : Py (Option (Sol ℝ)) := do
  let r ← Shoot.solve (shootEnv R.ivp R.simpson U p s.const) R.scipy R.norm R.newton R.opts R.alg R.fuel 1 (toCurve s) s.dyn s.nondyn
  .ok (r.map (fromResult s))

/-- An `SPBVP` object: `scipy.integrate.solve_bvp` with the options of the call, the compiled Jacobians (whatever they are), and the
tolerance of scipy for boundary conditions, which the code leaves at its default (SPBVP.py:22-24, 104-111). -/
structure Colloc where
  bvp : Beluga.Bvp.Stacked ℝ → Py (Beluga.Bvp.Answer ℝ)
  derivJac : Prob → Option (Beluga.Bvp.DJac ℝ)
  bcJac : Prob → Option (Beluga.Bvp.BJac ℝ)
  tol : ℝ

/-- An array of the model of `SPBVP`. -/
def ofArr : Traj.Arr ℝ → Map.Arr ℝ
  | .vec _ => .empty
  | .mat c r => .rows c r

/-- The attributes that `SPBVP` reads or writes. -/
def toBvp (s : Sol ℝ) : Beluga.Bvp.Sol ℝ :=
  ⟨s.t, toArr s.y, toArr s.q, toArr s.u, toArr s.dual, s.dyn, s.nondyn, s.const, s.converged⟩

/-- What `SPBVP.solve` writes into the copy of its argument (SPBVP.py:113-126). -/
def fromBvp (s : Sol ℝ) (r : Beluga.Bvp.Sol ℝ) : Sol ℝ :=
  { s with
    t := r.t, y := ofArr r.y, q := ofArr r.q, u := ofArr r.u, dual := ofArr r.dual, dyn := r.dyn, nondyn := r.nondyn, const := r.const,
    converged := r.converged }

/-- The functions that `run_continuation_set` sets on the solver object (continuation.py:521-529). -/
noncomputable def collocAlg (C : Colloc) (U : Name → Nat → ℝ → ℝ) (p : Prob) : Beluga.Bvp.Alg ℝ :=
  ⟨some (eomFn U p), quadFn U p, some (bcFn U p), C.derivJac p, C.bcJac p⟩

/-- `bvp_algorithm_.solve(sol_guess)` for an `SPBVP` object (continuation.py:539, 582).  The object is used for all calls; a call
only replaces its quadrature function, which makes no difference for trajectories without quadratures (`collocSol_again`). -/
noncomputable def collocSol (C : Colloc) (U : Name → Nat → ℝ → ℝ) (p : Prob) (s : Sol ℝ) : Py (Option (Sol ℝ)) :=
  let r := Beluga.Bvp.solve C.bvp (collocAlg C U p) [toBvp s] 0
  match r.2.2 with
  | .error e => .error e
  | .ok ref =>
    match r.2.1[ref]? with
    | some x => .ok (some (fromBvp s x))
    | none => .error .attributeError

/-- `bvp_algorithm('Shooting', ...)` and `bvp_algorithm('SPBVP', ...)` (bvp_solvers/__init__.py:8-24). -/
inductive Solver where
  | shooting (R : Shooter)
  | collocation (C : Colloc)

/-- How far the boundary conditions may be missed. -/
def Solver.tol : Solver → ℝ
  | .shooting R => R.opts.tol
  | .collocation C => C.tol

/-- `bvp_algorithm_.solve(sol_guess)` (continuation.py:539, 582). -/
noncomputable def solveSol (R : Solver) (U : Name → Nat → ℝ → ℝ) (p : Prob) (s : Sol ℝ) : Py (Option (Sol ℝ)) :=
  match R with
  | .shooting R => shootSol R U p s
  | .collocation C => collocSol C U p s

/-- Scaling, solving, unscaling (continuation.py:533-542, 576-585).  Factors are nonzero in every use, so that the division is
that of numbers. -/
noncomputable def solvePass (R : Solver) (U : Name → Nat → ℝ → ℝ) (p : Prob) (un : Option Units) (s : Sol ℝ) : Py (Option (Sol ℝ)) :=
  match un with
  | none => solveSol R U p s
  | some un => do
    let fs ← scaleFactors (real U) p un s.t s.y s.q s.dyn s.nondyn s.const
    let g ← scaleSol (· / ·) fs s
    match ← solveSol R U p g with
    | none => .ok none
    | some r => do
      let r ← scaleSol (· * ·) fs r
      .ok (some r)

/-! ### Specification -/

/-- The library functions keep their promises, the algorithm is the default one. -/
structure Shooter.Ok (R : Shooter) : Prop where
  ivp : IvpSound R.ivp
  complete : Complete R.ivp
  norm : NormSound R.norm
  alg : R.alg.toLower = "armijo"
  fuel : 5 ≤ R.fuel
  tol : 0 ≤ R.opts.tol

/-- What scipy promises about `solve_bvp`: the shape of its answer, boundary conditions up to the tolerance on success, a mesh with
the same ends, and that the equations could be evaluated at its nodes. -/
structure Colloc.Ok (C : Colloc) : Prop where
  sound : Beluga.Bvp.BvpSound (fun r => ∀ x ∈ r, |x| ≤ C.tol) C.bvp
  mesh : ∀ prob ans, C.bvp prob = .ok ans → prob.x.Pairwise (· < ·) → 2 ≤ prob.x.length →
    ans.x.Pairwise (· < ·) ∧ 2 ≤ ans.x.length ∧ ans.x.getD 0 0 = prob.x.getD 0 0 ∧ lastT ans.x = lastT prob.x
  rates : ∀ prob ans, C.bvp prob = .ok ans → ∃ v, prob.fn ans.y ans.p = .ok v
  tol : 0 ≤ C.tol

/-- The solver keeps its promises. -/
def Solver.Ok : Solver → Prop
  | .shooting R => R.Ok
  | .collocation C => C.Ok

/-- The controls of a guess as far as the solver looks at them: `Shooting` interpolates the guess, `SPBVP` does not. -/
def Solver.sees (R : Solver) (u : Traj.Arr ℝ) : Traj.Arr ℝ :=
  match R with
  | .shooting _ => u
  | .collocation _ => .vec []

/-- A trajectory from which the solver can start: times increase, there is a row of `n` states for every time. -/
def Solver.Starts (R : Solver) (n : Nat) (s : Sol ℝ) : Prop := Guess n 0 ⟨s.t, toArr s.y, toArr s.q, R.sees (toArr s.u)⟩

/-- The factors for the guess `s` are the sizes of the declared units `Γ`, if the basic units have the sizes `φ`; the result of
`C18_factors`. -/
def Factored (U : Name → Nat → ℝ → ℝ) (Γ : Name → Expr) (φ : Name → ℝ) (p : Prob) (un : Units) (s : Sol ℝ) : Prop :=
  scaleFactors (real U) p un s.t s.y s.q s.dyn s.nondyn s.const = .ok ⟨eval (real U) φ (Γ p.ind), sizes U Γ φ (sts p),
    sizes U Γ φ (qds p), sizes U Γ φ p.controls, sizes U Γ φ p.parameters, sizes U Γ φ p.constraintParams,
    sizes U Γ φ p.constants⟩

/-! ### Lemmas -/

variable {U : Name → Nat → ℝ → ℝ} {Γ : Name → Expr}

theorem shootSol_ends {R : Shooter} (hR : R.Ok) {p : Prob} (hq : p.quads = []) (hst : p.states ≠ []) {s s1 : Sol ℝ}
    {nO nQ : Nat} (hG : Guess nO nQ (toCurve s)) (h : shootSol R U p s = .ok (some s1)) (hc : s1.converged = true) :
    s1.const = s.const ∧ 0 < s1.t.length ∧ (∀ τ ∈ s1.t, τ ∈ Set.Icc (s.t.getD 0 0) (lastT s.t)) ∧ s1.t.getD 0 0 = s.t.getD 0 0 ∧
      lastT s1.t = lastT s.t ∧ ∃ ys, s1.y = .rows p.states.length ys ∧ ys.length = s1.t.length ∧ (∀ x ∈ ys, x.length = p.states.length) ∧
        (∃ v, derivFunc (real U) p (ys.getD 0 []) s1.dyn s.const = .ok v) ∧
        ∃ b, bcFunc (real U) p (ys.getD 0 []) [] (ys.getD (ys.length - 1) []) [] s1.dyn s1.nondyn s.const = .ok b ∧
          ∀ x ∈ b, |x| ≤ R.opts.tol := by
  obtain ⟨r, hr, h⟩ := bind_ok h
  cases r with
  | none => cases h
  | some r =>
    cases h
    obtain ⟨h1, h2, h3, h4, h5, h6, ⟨v, hv⟩, h7⟩ := shooting_ends hq hR.ivp hR.complete hR.norm hR.alg hR.fuel hG hr hc
    obtain ⟨⟨l1, -⟩, -⟩ := derivFunc_dom hst hv
    refine ⟨rfl, h1, h3, h4, h5, r.y, ?_, h2, ?_, ⟨v, hv⟩, h7⟩
    · change ofRows r.y = _
      cases hy : r.y with
      | nil => rw [hy] at h2; simp at h2; omega
      | cons x ys =>
        rw [ofRows]
        rw [hy] at l1
        simp at l1
        rw [l1]
    · intro x hx
      rw [h6 x hx, l1]

/-- A call of `SPBVP.solve` for a trajectory without quadratures does not depend on the quadrature function that is set. -/
theorem collocSol_again (bvp : Beluga.Bvp.Stacked ℝ → Py (Beluga.Bvp.Answer ℝ)) (A : Beluga.Bvp.Alg ℝ)
    (f : Option (Shoot.Fn ℝ)) (x : Beluga.Bvp.Sol ℝ) (hq : Beluga.Bvp.size x.q = 0) :
    (Beluga.Bvp.solve bvp { A with quad := f } [x] 0).2 = (Beluga.Bvp.solve bvp A [x] 0).2 := by
  have hd : (Beluga.Bvp.dims { A with quad := f } x).2 = (Beluga.Bvp.dims A x).2 ∧ ∀ d,
      (Beluga.Bvp.dims A x).2 = .ok d → (Beluga.Bvp.dims { A with quad := f } x).1 = (Beluga.Bvp.dims A x).1 := by
    unfold Beluga.Bvp.dims
    cases Beluga.Bvp.shape1 x.y with
    | error e => exact ⟨rfl, fun d h => by cases h⟩
    | ok n => simp [hq]
  unfold Beluga.Bvp.solve
  simp only [List.getElem?_cons_zero, hd.1]
  cases he : (Beluga.Bvp.dims A x).2 with
  | error e => rfl
  | ok d => simp only [hd.2 d he]

theorem bcast_eq {op : ℝ → ℝ → ℝ} {l fs : List ℝ} (h : l.length = fs.length) : bcast op l fs = .ok (List.zipWith op l fs) := by
  unfold bcast
  rw [if_pos h]

/-- Shape of a generated problem. -/
theorem indirect_shape {S : Sympy} (hL : LuSound S) {o : Opts} {p p' q : Prob} (hp : Stated p) (hm : o.momentumShift = true)
    (hd : o.method ≠ .other) (h : indirect S o p = .ok p') (hprimal : primal S p = .ok q) :
    p'.states ≠ [] ∧ p'.terminal ≠ [] := by
  obtain ⟨p1, g1, h⟩ := bind_ok h
  obtain ⟨steps, g2, h⟩ := bind_ok h
  obtain ⟨ineq, ctl, hineq, hctl, rfl⟩ := indirectSteps_ok g2
  have hsplit : (if o.momentumShift then [Step.momentumShift] else []) ++ ineq ++
        (if p1.switches.length > 0 then [.rashs] else []) ++ [.dualize o.method, ctl] ++
        (if o.normalizeTime then [.normalizeTime] else []) ++ [.squash] ++
        (if o.analyticalJacobian && o.controlMethod ≠ .algebraic then [.jacobians] else []) =
      (.momentumShift :: (ineq ++ if p1.switches.length > 0 then [.rashs] else [])) ++
        ([.dualize o.method, ctl] ++ ((if o.normalizeTime then [.normalizeTime] else []) ++ [.squash] ++
        (if o.analyticalJacobian && o.controlMethod ≠ .algebraic then [.jacobians] else []))) := by
    rw [if_pos hm]
    simp
  rw [hsplit, runSteps_append] at h
  obtain ⟨q', hq, h⟩ := bind_ok h
  have e : primal S p = .ok q' := by
    rw [primal, g1]
    change (ineqSteps _ >>= _) = _
    rw [hineq]
    exact hq
  rw [hprimal] at e
  cases e
  obtain ⟨p3, f, f2, f3, hf⟩ := front hp hprimal
  have hcl := hf.clean hp
  have hqs : q.states ≠ [] := by
    have := hf.names
    intro h0
    rw [h0] at this
    simp at this
  rw [List.cons_append, List.cons_append, List.nil_append, runSteps_cons] at h
  obtain ⟨qd, hdu, h⟩ := bind_ok h
  rw [runSteps_cons] at h
  obtain ⟨q1, h1, h⟩ := bind_ok h
  obtain ⟨t1, t2, t3, -⟩ := tail_ok h
  have hD := dualize_any hL hcl hd hdu
  have hHd := hD.ham
  have hs1 := hD.states
  have ht1 : qd.terminal ≠ [] := by rw [hD.terminal]; simp
  have key : q1.states ≠ [] ∧ q1.terminal ≠ [] := by
    rcases hctl with ⟨rfl, -⟩ | ⟨rfl, -⟩
    · have h1 : algebraicControl S qd = .ok q1 := h1
      obtain ⟨dhdu, chain, e, -⟩ := algebraic_ok hHd h1
      rw [e]
      exact ⟨by rw [hs1]; exact hqs, ht1⟩
    · have h1 : differentialControl S o.method qd = .ok q1 := h1
      have hX := differential_any hL hD h1
      refine ⟨fun e => ?_, ?_⟩
      · have := hX.names
        rw [e] at this
        simp [hqs] at this
      · cases hmm : o.method with
        | other => exact absurd hmm hd
        | traditional =>
          rw [hmm] at h1
          obtain ⟨_, _, H, udot, hH, hlu, e⟩ := differential_traditional h1
          rw [e]
          simp [ht1]
        | diffyg =>
          rw [hmm] at h1
          obtain ⟨_, _, _, _, _, _, _, _, _, e⟩ := differential_diffyg h1
          rw [e]
          simp [ht1]
  rw [t1, t3]
  refine ⟨?_, key.2⟩
  split <;> simp [key.1]

theorem mapM_bcast {op : ℝ → ℝ → ℝ} {fs : List ℝ} {rows : List (List ℝ)} (h : ∀ r ∈ rows, r.length = fs.length) :
    (rows.mapM fun row => bcast op row fs) = .ok (rows.map fun r => List.zipWith op r fs) :=
  Num.mapM_ok fun r hr => bcast_eq (h r hr)

/-- The step of `scaleSol` for the controls. -/
theorem u_ok {α β : Type} {c : Bool} {x y : Py α} {k : α → Py β} {r : β}
    (h : (if c = true then x >>= k else y >>= k) = .ok r) : ∃ u, (if c = true then x else y) = .ok u ∧ k u = .ok r := by
  cases c
  · exact bind_ok h
  · exact bind_ok h

/-- Unscaling a solution whose arrays have the sizes of the problem. -/
theorem unscale_ok {p : Prob} {φ : Name → ℝ} {s r : Sol ℝ} {ys : List (List ℝ)} {fq : List ℝ} {τ : ℝ}
    (h : scaleSol (· * ·) ⟨τ, sizes U Γ φ (sts p), fq, sizes U Γ φ p.controls, sizes U Γ φ p.parameters,
      sizes U Γ φ p.constraintParams, sizes U Γ φ p.constants⟩ s = .ok r)
    (hy : s.y = .rows p.states.length ys) (hyl : ∀ x ∈ ys, x.length = p.states.length)
    (hd : s.dyn.length = p.parameters.length) (hn : s.nondyn.length = p.constraintParams.length)
    (hk : s.const.length = p.constants.length) :
    r.t = s.t.map (· * τ) ∧
      r.y = .rows p.states.length (ys.map fun x => List.zipWith (· * ·) x (sizes U Γ φ (sts p))) ∧
      r.dyn = List.zipWith (· * ·) s.dyn (sizes U Γ φ p.parameters) ∧
      r.nondyn = List.zipWith (· * ·) s.nondyn (sizes U Γ φ p.constraintParams) ∧
      r.const = List.zipWith (· * ·) s.const (sizes U Γ φ p.constants) ∧ r.converged = s.converged := by
  have hl : ∀ ns, (sizes U Γ φ ns).length = ns.length := fun ns => by simp [sizes]
  have hls : (sizes U Γ φ (sts p)).length = p.states.length := by rw [hl, sts, List.length_map]
  rw [scaleSol] at h
  obtain ⟨y', h1, h⟩ := bind_ok h
  obtain ⟨q', h2, h⟩ := bind_ok h
  obtain ⟨u', -, h⟩ := u_ok h
  obtain ⟨d', h4, h⟩ := bind_ok h
  obtain ⟨n', h5, h⟩ := bind_ok h
  obtain ⟨k', h6, h⟩ := bind_ok h
  cases h
  dsimp only at h1 h4 h5 h6
  rw [bcast_eq (by rw [hl, hd])] at h4
  rw [bcast_eq (by rw [hl, hn])] at h5
  rw [bcast_eq (by rw [hl, hk])] at h6
  cases h4; cases h5; cases h6
  rw [hy, bcastArr, if_pos (Or.inl hls.symm), mapM_bcast (by rw [hls]; exact hyl)] at h1
  cases h1
  refine ⟨rfl, ?_, rfl, rfl, rfl, rfl⟩
  dsimp only
  rw [hls, ite_self]

/-- Scaling divides the times. -/
theorem scale_times {fs : Factors ℝ} {s g : Sol ℝ} (h : scaleSol (· / ·) fs s = .ok g) : g.t = s.t.map (· / fs.t) := by
  rw [scaleSol] at h
  obtain ⟨y', h1, h⟩ := bind_ok h
  obtain ⟨q', h2, h⟩ := bind_ok h
  obtain ⟨u', -, h⟩ := u_ok h
  obtain ⟨d', h4, h⟩ := bind_ok h
  obtain ⟨n', h5, h⟩ := bind_ok h
  obtain ⟨k', h6, h⟩ := bind_ok h
  cases h
  rfl

theorem getD_map_div (l : List ℝ) (c : ℝ) (i : Nat) : (l.map (· / c)).getD i 0 = l.getD i 0 / c := by
  rw [List.getD_eq_getElem?_getD, List.getElem?_map, List.getD_eq_getElem?_getD]
  cases l[i]? <;> simp

theorem mapM_rel {α β : Type} {f : α → Py β} : ∀ {l : List α} {w : List β}, l.mapM f = .ok w →
    List.Forall₂ (fun a b => f a = .ok b) l w
  | [], w, h => by
    cases h
    exact .nil
  | a :: l, w, h => by
    rw [List.mapM_cons] at h
    obtain ⟨y, h1, h⟩ := bind_ok h
    obtain ⟨ys, h2, h⟩ := bind_ok h
    cases h
    exact .cons h1 (mapM_rel h2)

/-- The guess without its controls. -/
theorem Solver.Starts.bare {R : Solver} {n : Nat} {s : Sol ℝ} (h : R.Starts n s) : Guess n 0 (toCurve { s with u := .empty }) := by
  cases R with
  | shooting R =>
    have h : Guess n 0 (toCurve s) := h
    exact ⟨h.times, h.two, h.y, h.q, Or.inl rfl⟩
  | collocation C => exact h

theorem bare_bvp {n : Nat} {s : Sol ℝ} (h : Guess n 0 (toCurve { s with u := .empty })) : Beluga.Bvp.Guess n 0 (toBvp s) := by
  obtain ⟨rows, e, f⟩ := h.y
  have h2 := h.two
  refine ⟨⟨rows, e, ?_, ?_⟩, Or.inl ⟨rfl, ?_⟩⟩
  · rintro rfl
    rw [e] at f
    have := f.1
    simp only [List.length_nil] at this
    omega
  · rw [e] at f
    exact f.2
  · change Beluga.Bvp.size (toArr s.q) = 0
    rcases h.q with ⟨-, e⟩ | ⟨rows, e, -⟩
    · change toArr s.q = _ at e
      rw [e]
      rfl
    · change toArr s.q = _ at e
      rw [e]
      simp [Beluga.Bvp.size]

theorem take_all {l : List (List ℝ)} {n : Nat} (h : ∀ r ∈ l, r.length = n) : (l.map fun r => r.take n) = l := by
  conv_rhs => rw [← List.map_id l]
  exact List.map_congr_left fun r hr => by rw [List.take_of_length_le (h r hr).le]; rfl

/-- What `SPBVP` returns is made from scipy's answer. -/
theorem collocSol_ok {C : Colloc} (hC : C.Ok) {p : Prob} {s r : Sol ℝ} {n : Nat} (hG : Guess n 0 (toCurve { s with u := .empty }))
    (h : collocSol C U p s = .ok (some r)) :
    ∃ ys, r.y = .rows n ys ∧ ys.length = r.t.length ∧ (∀ x ∈ ys, x.length = n) ∧ r.t.Pairwise (· < ·) ∧ 2 ≤ r.t.length ∧
      r.t.getD 0 0 = s.t.getD 0 0 ∧ lastT r.t = lastT s.t ∧ r.q = .rows 0 (ys.map fun _ => []) ∧ r.const = s.const ∧
      (∃ v, derivFunc (real U) p (ys.getD 0 []) r.dyn s.const = .ok v) ∧
      (p.quads = [] → r.converged = true →
        ∃ b, bcFunc (real U) p (ys.getD 0 []) [] (ys.getD (ys.length - 1) []) [] r.dyn r.nondyn s.const = .ok b ∧ ∀ x ∈ b, |x| ≤ C.tol) := by
  have hB := bare_bvp hG
  unfold collocSol at h
  generalize hres : Beluga.Bvp.solve C.bvp (collocAlg C U p) [toBvp s] 0 = res at h
  obtain ⟨A', h', e | ref'⟩ := res
  · cases h
  dsimp only at h
  have hs : ([toBvp s] : Beluga.Bvp.Heap ℝ)[0]? = some (toBvp s) := rfl
  obtain ⟨rfl, r', prob, ans, rfl, hrun⟩ := Beluga.Bvp.solve_run hs hB hres
  have hr' : ([toBvp s] ++ [r'])[([toBvp s] : Beluga.Bvp.Heap ℝ).length]? = some r' := rfl
  rw [hr'] at h
  cases h
  have hsh := Beluga.Bvp.C46_shapes hC.sound hs hB hres hr'
  have hbd := Beluga.Bvp.C46_boundary hC.sound (A := collocAlg C U p) (bc := bcFn U p) rfl hs hB hres hr'
  obtain ⟨hst, hans, hres'⟩ := hrun
  obtain ⟨hne, hw, -, -⟩ := Beluga.Bvp.stacked_rows hB hst
  have hparts := Beluga.Bvp.stacked_ok hst
  have hx : prob.x = s.t := hparts.2.2.2.2.1
  have hnodes := hC.sound.nodes prob ans hans
  have hwid : ∀ x ∈ ans.y, x.length = n := by simpa using hC.sound.width prob ans _ hans hne hw
  obtain ⟨m1, m2, m3, m4⟩ := hC.mesh prob ans hans (by rw [hx]; exact hG.times) (by rw [hx]; exact hG.two)
  rw [hx] at m3 m4
  obtain ⟨v, hv⟩ := hC.rates prob ans hans
  have ey : r'.y = .mat n ans.y := by
    rw [hres']
    change Traj.Arr.mat n _ = _
    rw [take_all hwid]
  have eq : r'.q = .mat 0 (ans.y.map fun _ => []) := by
    rw [hres']
    change Traj.Arr.mat 0 _ = _
    simp
  have et : r'.t = ans.x := by rw [hres']; rfl
  have ek : r'.const = s.const := by rw [hres']; rfl
  refine ⟨ans.y, ?_, ?_, hwid, ?_, ?_, ?_, ?_, ?_, ek, ?_, ?_⟩
  · change ofArr r'.y = _
    rw [ey]
    rfl
  · change _ = r'.t.length
    rw [et]
    exact hnodes.2
  · change r'.t.Pairwise _
    rw [et]
    exact m1
  · change 2 ≤ r'.t.length
    rw [et]
    exact m2
  · change r'.t.getD 0 0 = _
    rw [et]
    exact m3
  · change lastT r'.t = _
    rw [et]
    exact m4
  · change ofArr r'.q = _
    rw [eq]
    rfl
  · rw [hparts.1] at hv
    unfold Beluga.Bvp.stackFun at hv
    dsimp only at hv
    rw [if_pos rfl] at hv
    obtain ⟨o1, ho1, -⟩ := bind_ok hv
    have hrel := mapM_rel ho1
    have hd : (Beluga.Bvp.dims (collocAlg C U p) (toBvp s)).1.deriv = some (eomFn U p) := by
      rw [Beluga.Bvp.dims_alg hB]
      rfl
    cases hy : ans.y with
    | nil => exact absurd hy hnodes.1
    | cons y0 ys =>
      rw [hy] at hrel
      cases hrel with
      | @cons _ v0 _ _ h1 _ =>
        rw [hd] at h1
        refine ⟨v0, ?_⟩
        have e1 : y0.take n = y0 := List.take_of_length_le (hwid y0 (by rw [hy]; simp)).le
        have e2 : (ans.p.getD []).take s.dyn.length = r'.dyn := by
          rw [hres']
          cases hap : ans.p <;> simp [Beluga.Bvp.unstack, hap, toBvp]
        have h1 : eomFn U p [y0.take n, (ans.p.getD []).take s.dyn.length, s.const] = .ok v0 := h1
        rw [e1, e2] at h1
        exact h1
  · intro hq hc
    obtain ⟨b, hb, hsm⟩ := hbd hc
    refine ⟨b, ?_, hsm⟩
    unfold Beluga.Bvp.residuals at hb
    rw [ey, eq] at hb
    dsimp only at hb
    rw [if_pos rfl, ek] at hb
    change bcFunc (real U) p _ [] _ [] r'.dyn r'.nondyn s.const = _
    simpa [bcFn, hq] using hb

theorem collocSol_ends {C : Colloc} (hC : C.Ok) {p : Prob} (hq : p.quads = []) (hst : p.states ≠ []) {s s1 : Sol ℝ}
    {nO : Nat} (hG : Guess nO 0 (toCurve { s with u := .empty })) (h : collocSol C U p s = .ok (some s1)) (hc : s1.converged = true) :
    s1.const = s.const ∧ 0 < s1.t.length ∧ (∀ τ ∈ s1.t, τ ∈ Set.Icc (s.t.getD 0 0) (lastT s.t)) ∧ s1.t.getD 0 0 = s.t.getD 0 0 ∧
      lastT s1.t = lastT s.t ∧ ∃ ys, s1.y = .rows p.states.length ys ∧ ys.length = s1.t.length ∧ (∀ x ∈ ys, x.length = p.states.length) ∧
        (∃ v, derivFunc (real U) p (ys.getD 0 []) s1.dyn s.const = .ok v) ∧
        ∃ b, bcFunc (real U) p (ys.getD 0 []) [] (ys.getD (ys.length - 1) []) [] s1.dyn s1.nondyn s.const = .ok b ∧
          ∀ x ∈ b, |x| ≤ C.tol := by
  obtain ⟨ys, h1, h2, h3, h4, h5, h6, h7, -, h9, ⟨v, hv⟩, h11⟩ := collocSol_ok hC hG h
  obtain ⟨⟨l1, -⟩, -⟩ := derivFunc_dom hst hv
  have hn : nO = p.states.length := by
    rw [← l1, getD_at (by omega)]
    exact (h3 _ (List.getElem_mem _)).symm
  rw [hn] at h1 h3
  refine ⟨h9, by omega, fun τ hτ => ?_, h6, h7, ys, h1, h2, h3, ⟨v, hv⟩, h11 hq hc⟩
  have := pairwise_bounds h4 hτ
  rwa [h6, h7] at this

/-- A converged call: the ends satisfy the boundary conditions up to the tolerance. -/
theorem solveSol_ends {R : Solver} (hR : R.Ok) {p : Prob} (hq : p.quads = []) (hst : p.states ≠ []) {s s1 : Sol ℝ}
    {nO : Nat} (hG : R.Starts nO s) (h : solveSol R U p s = .ok (some s1)) (hc : s1.converged = true) :
    s1.const = s.const ∧ 0 < s1.t.length ∧ (∀ τ ∈ s1.t, τ ∈ Set.Icc (s.t.getD 0 0) (lastT s.t)) ∧ s1.t.getD 0 0 = s.t.getD 0 0 ∧
      lastT s1.t = lastT s.t ∧ ∃ ys, s1.y = .rows p.states.length ys ∧ ys.length = s1.t.length ∧ (∀ x ∈ ys, x.length = p.states.length) ∧
        (∃ v, derivFunc (real U) p (ys.getD 0 []) s1.dyn s.const = .ok v) ∧
        ∃ b, bcFunc (real U) p (ys.getD 0 []) [] (ys.getD (ys.length - 1) []) [] s1.dyn s1.nondyn s.const = .ok b ∧
          ∀ x ∈ b, |x| ≤ R.tol := by
  cases R with
  | shooting R => exact shootSol_ends hR hq hst hG h hc
  | collocation C => exact collocSol_ends hR hq hst hG h hc

theorem Solver.Ok.tol {R : Solver} (hR : R.Ok) : 0 ≤ R.tol := by
  cases R with
  | shooting R => exact Shooter.Ok.tol hR
  | collocation C => exact Colloc.Ok.tol hR

theorem bcast_length {op : ℝ → ℝ → ℝ} {l fs r : List ℝ} (h : bcast op l fs = .ok r) :
    r.length = if l.length = 1 then fs.length else l.length := by
  unfold bcast at h
  split_ifs at h with e
  · cases h
    rw [List.length_zipWith, e, min_self, ite_self]
  · split at h
    · next f =>
      cases h
      rw [List.length_map, if_neg (by simpa using e)]
    · next x _ =>
      cases h
      rw [List.length_map, if_pos (by simp)]
    · cases h

/-- A trajectory array that fits does so after scaling. -/
theorem bcastArr_rows {op : ℝ → ℝ → ℝ} {c : Nat} {r : List (List ℝ)} {a : Map.Arr ℝ} {fs : List ℝ} (h : bcastArr op (.rows c r) fs = .ok a)
    (hf : ∀ x ∈ r, x.length = c) : ∃ r', a = .rows (if c = 1 then fs.length else c) r' ∧ r'.length = r.length ∧
      ∀ x ∈ r', x.length = if c = 1 then fs.length else c := by
  rw [bcastArr] at h
  by_cases h1 : c = fs.length ∨ fs.length = 1 ∨ c = 1
  swap
  · rw [if_neg h1] at h
    cases h
  rw [if_pos h1] at h
  obtain ⟨r', h2, h⟩ := bind_ok h
  cases h
  have h3 := mapM_rel h2
  refine ⟨r', rfl, h3.length_eq.symm, ?_⟩
  clear h2 h
  induction h3 with
  | nil => simp
  | @cons x y l l' e _ ih =>
    intro z hz
    rcases List.mem_cons.1 hz with rfl | hz
    · rw [bcast_length e, hf x (List.mem_cons_self ..)]
    · exact ih (fun w hw => hf w (List.mem_cons_of_mem _ hw)) z hz

/-- A scaled trajectory fits again. -/
theorem scale_guess {p : Prob} {φ : Name → ℝ} (hq : p.quads = []) {τ : ℝ} {op : ℝ → ℝ → ℝ}
    (hop : ∀ a b, a < b → op a τ < op b τ) {s g : Sol ℝ}
    (h : scaleSol op ⟨τ, sizes U Γ φ (sts p), sizes U Γ φ (qds p), sizes U Γ φ p.controls, sizes U Γ φ p.parameters,
      sizes U Γ φ p.constraintParams, sizes U Γ φ p.constants⟩ s = .ok g)
    (hG : Guess p.states.length 0 (toCurve s)) : Guess p.states.length 0 (toCurve g) := by
  have hl : ∀ ns, (sizes U Γ φ ns).length = ns.length := fun ns => by simp [sizes]
  have hls : (sizes U Γ φ (sts p)).length = p.states.length := by rw [hl, sts, List.length_map]
  have hlq : sizes U Γ φ (qds p) = [] := by simp [sizes, qds, hq]
  rw [scaleSol] at h
  obtain ⟨y', h1, h⟩ := bind_ok h
  obtain ⟨q', h2, h⟩ := bind_ok h
  obtain ⟨u', h3, h⟩ := u_ok h
  obtain ⟨d', h4, h⟩ := bind_ok h
  obtain ⟨n', h5, h⟩ := bind_ok h
  obtain ⟨k', h6, h⟩ := bind_ok h
  cases h
  dsimp only at h1 h2 h3
  refine ⟨?_, ?_, ?_, ?_, ?_⟩
  · change (s.t.map fun x => op x τ).Pairwise _
    rw [List.pairwise_map]
    exact hG.times.imp fun hab => hop _ _ hab
  · change 2 ≤ (s.t.map fun x => op x τ).length
    rw [List.length_map]
    exact hG.two
  · obtain ⟨rows, e, f⟩ := hG.y
    change toArr s.y = _ at e
    change Traj.Fits s.t.length (toArr s.y) at f
    cases hs : s.y with
    | empty => rw [hs] at e; cases e
    | rows c r =>
      rw [hs] at e f h1
      cases e
      obtain ⟨r', rfl, g1, g2⟩ := bcastArr_rows h1 f.2
      rw [hls, ite_self] at g2 ⊢
      refine ⟨r', rfl, ?_, g2⟩
      change r'.length = (s.t.map fun x => op x τ).length
      rw [g1, f.1, List.length_map]
  · rw [hlq] at h2
    rcases hG.q with ⟨-, e⟩ | ⟨rows, e, f⟩
    · left
      refine ⟨rfl, ?_⟩
      change toArr s.q = _ at e
      change toArr q' = _
      cases hs : s.q with
      | empty =>
        rw [hs, bcastArr, if_pos (by simp)] at h2
        cases h2
        rfl
      | rows c r => rw [hs] at e; cases e
    · right
      change toArr s.q = _ at e
      change Traj.Fits s.t.length (toArr s.q) at f
      cases hs : s.q with
      | empty => rw [hs] at e; cases e
      | rows c r =>
        rw [hs] at e f h2
        cases e
        obtain ⟨r', rfl, g1, g2⟩ := bcastArr_rows h2 f.2
        refine ⟨r', rfl, ?_, g2⟩
        change r'.length = (s.t.map fun x => op x τ).length
        rw [g1, f.1, List.length_map]
  · have hu : Traj.FitsOrEmpty s.t.length (toArr s.u) := hG.u
    change Traj.FitsOrEmpty (s.t.map fun x => op x τ).length (toArr u')
    rw [List.length_map]
    split_ifs at h3 with hne
    · cases hs : s.u with
      | empty => rw [hs] at hne; cases hne
      | rows c r =>
        rw [hs] at h3 hu
        obtain ⟨f1, f2⟩ : r.length = s.t.length ∧ ∀ x ∈ r, x.length = c := hu.resolve_left (by simp [toArr])
        obtain ⟨r', rfl, g1, g2⟩ := bcastArr_rows h3 f2
        exact Or.inr ⟨by rw [g1, f1], g2⟩
    · cases h3
      exact hu

theorem scale_bare {op : ℝ → ℝ → ℝ} {fs : Factors ℝ} {s g : Sol ℝ} (h : scaleSol op fs s = .ok g) :
    scaleSol op fs { s with u := .empty } = .ok { g with u := .empty } := by
  rw [scaleSol] at h
  obtain ⟨y', h1, h⟩ := bind_ok h
  obtain ⟨q', h2, h⟩ := bind_ok h
  obtain ⟨u', h3, h⟩ := u_ok h
  obtain ⟨d', h4, h⟩ := bind_ok h
  obtain ⟨n', h5, h⟩ := bind_ok h
  obtain ⟨k', h6, h⟩ := bind_ok h
  cases h
  rw [scaleSol]
  dsimp only
  rw [h1, Num.ok_bind, h2, Num.ok_bind, if_neg (by simp [nonEmpty]), Num.ok_bind, h4, Num.ok_bind, h5, Num.ok_bind, h6]
  rfl

/-- A scaled trajectory is one from which the solver can start. -/
theorem scale_starts {R : Solver} {p : Prob} {φ : Name → ℝ} (hq : p.quads = []) {τ : ℝ} {op : ℝ → ℝ → ℝ}
    (hop : ∀ a b, a < b → op a τ < op b τ) {s g : Sol ℝ}
    (h : scaleSol op ⟨τ, sizes U Γ φ (sts p), sizes U Γ φ (qds p), sizes U Γ φ p.controls, sizes U Γ φ p.parameters,
      sizes U Γ φ p.constraintParams, sizes U Γ φ p.constants⟩ s = .ok g)
    (hG : R.Starts p.states.length s) : R.Starts p.states.length g := by
  cases R with
  | shooting R => exact scale_guess hq hop h hG
  | collocation C => exact scale_guess hq hop (scale_bare h) hG

/-- What a converged call with autoscaling says about the original problem: the times of the result are within those of the guess,
and on every curve through the returned rows the boundary conditions hold up to the tolerance times the largest size of their
units. -/
theorem pass_boundary {S : Sympy} (hL : LuSound S) {o : Opts} {p p' q : Prob} (hp : Stated p) (hH : p.hamiltonian = none)
    (hm : o.momentumShift = true) (hd : o.method ≠ .other) (h : indirect S o p = .ok p') (hq : primal S p = .ok q)
    {T T' : Homog.Tab} (hφ : Sizes U Γ φ) (hLu : Homog.LuDim U Γ S)
    (hSo : o.controlMethod = .algebraic → Homog.SolveDim U Γ S) (hcons : Homog.Consistent U Γ (Γ p.ind) p T)
    (hsw : ∀ s ∈ p.switches, Homog.SwitchDim U Γ s) (hU : Homog.indirectU S o (p, T) = .ok (p', T')) (hag : Homog.Agrees Γ T')
    (hnd : (sts p' ++ p'.controls ++ p'.parameters ++ p'.constraintParams ++ p'.constants).Nodup) {D : ℝ}
    (hD : Largest U φ T' D) {R : Solver} {un : Units} {g r : Sol ℝ} (hR : R.Ok) (hG : R.Starts p'.states.length g)
    (hF : Factored U Γ φ p' un g) (hrun : solvePass R U p' (some un) g = .ok (some r)) (hc : r.converged = true) :
    0 ≤ R.tol * D ∧ r.t ≠ [] ∧ (∀ t ∈ r.t, t ∈ Set.Icc (g.t.getD 0 0) (lastT g.t)) ∧
      ∀ (y : ℝ → List ℝ) (ρ : ℝ → Env), r.y = .rows p'.states.length (r.t.map y) →
        Reads U p' (g.t.getD 0 0) (lastT g.t) y r.dyn r.nondyn r.const ρ →
        ∃ w, bcFunc (real U) p' (y (g.t.getD 0 0)) [] (y (lastT g.t)) [] r.dyn r.nondyn r.const = .ok w ∧
          ∀ x ∈ w, |x| ≤ R.tol * D := by
  have hquads : p'.quads = [] := indirect_quads hL hp hm hd h hq
  obtain ⟨hst, hte⟩ := indirect_shape hL hp hm hd h hq
  obtain ⟨hcons', -⟩ := Homog.C63_partial hφ.unit hLu hL hSo hd (fun _ => ⟨hp.parameters, fun _ => hm⟩)
    ⟨hp.costates, hp.coparameters, hp.law, hH⟩ hcons hsw hU hag
  have hT : 0 < eval (real U) φ (Γ p'.ind) := hφ.unit _ φ hφ.pos
  -- the run
  rw [solvePass] at hrun
  obtain ⟨fs, hfs, hrun⟩ := bind_ok hrun
  rw [hF] at hfs
  cases hfs
  obtain ⟨g', hg', hrun⟩ := bind_ok hrun
  obtain ⟨s1, hs1, hrun⟩ := bind_ok hrun
  cases s1 with
  | none => cases hrun
  | some s1 =>
    obtain ⟨r1, hr1, hrun⟩ := bind_ok hrun
    cases hrun
    have htg := scale_times hg'
    dsimp only at htg
    have hG' := scale_starts hquads (fun _ _ hab => div_lt_div_of_pos_right hab hT) hg' hG
    generalize eval (real U) φ (Γ p'.ind) = τ at hT hg' hr1 htg hG'
    have ha : g'.t.getD 0 0 * τ = g.t.getD 0 0 := by rw [htg, getD_map_div, div_mul_cancel₀ _ hT.ne']
    have hb : lastT g'.t * τ = lastT g.t := by
      rw [lastT, lastT, htg, List.length_map, getD_map_div, div_mul_cancel₀ _ hT.ne']
    have hc1 : s1.converged = true := by
      rw [scaleSol] at hr1
      obtain ⟨y', h1, hr1⟩ := bind_ok hr1
      obtain ⟨q', h2, hr1⟩ := bind_ok hr1
      obtain ⟨u', h3, hr1⟩ := u_ok hr1
      obtain ⟨d', h4, hr1⟩ := bind_ok hr1
      obtain ⟨n', h5, hr1⟩ := bind_ok hr1
      obtain ⟨k', h6, hr1⟩ := bind_ok hr1
      cases hr1
      exact hc
    obtain ⟨e1, n1, n2, n3, n4, ys, n5, n6, n7, ⟨v0, hv0⟩, w0, hw0, hle⟩ := solveSol_ends hR hquads hst hG' hs1 hc1
    obtain ⟨⟨-, l2, l3⟩, -⟩ := derivFunc_dom hst hv0
    have hw0' := hw0
    rw [bcFunc] at hw0'
    obtain ⟨w1, hw1, hw0'⟩ := bind_ok hw0'
    obtain ⟨w2, hw2, -⟩ := bind_ok hw0'
    obtain ⟨-, l4⟩ := bcEnd_dom hquads hw2
    obtain ⟨f1, f2, f3, f4, f5, -⟩ := unscale_ok hr1 n5 n7 l2 (l4 hte) (by rw [e1]; exact l3)
    have hgrid : ∀ t ∈ r.t, t ∈ Set.Icc (g.t.getD 0 0) (lastT g.t) := by
      intro t ht
      rw [f1] at ht
      obtain ⟨t', ht', rfl⟩ := List.mem_map.1 ht
      rw [← ha, ← hb]
      exact ⟨mul_le_mul_of_nonneg_right (n2 t' ht').1 hT.le, mul_le_mul_of_nonneg_right (n2 t' ht').2 hT.le⟩
    have hpos' : 0 < r.t.length := by rw [f1]; simpa using n1
    have hD0 : 0 ≤ D := by
      have hter := hcons'.terminal
      cases hx : p'.terminal with
      | nil => exact absurd hx hte
      | cons c cs =>
        rw [hx] at hter
        cases hy : T'.terminal with
        | nil => rw [hy] at hter; cases hter
        | cons u us =>
          rw [hy] at hter
          cases hter with
          | cons hcu _ => exact (dim_aux hφ φ hcu.expr).1.le.trans (hD u (by simp [hy]))
    refine ⟨mul_nonneg hR.tol hD0, List.ne_nil_of_length_pos hpos', hgrid, ?_⟩
    intro y ρ hy hread
    have hys : (ys.map fun x => List.zipWith (· * ·) x (sizes U Γ φ (sts p'))) = r.t.map y := by
      rw [f2] at hy
      exact (Arr.rows.inj hy).2
    obtain ⟨g0, g1⟩ := samples_ends hys hpos'
    have et0 : r.t.getD 0 0 = g.t.getD 0 0 := by
      rw [f1, ← ha, ← n3, getD_at (by simpa using n1), List.getElem_map, getD_at n1]
    have et1 : lastT r.t = lastT g.t := by
      rw [← hb, ← n4, lastT, lastT, f1, getD_at (by simp; omega), List.getElem_map, getD_at (by omega)]
      simp
    have hyl : 0 < ys.length := by omega
    have k0 : y (g.t.getD 0 0) = List.zipWith (· * ·) (ys.getD 0 []) (sizes U Γ φ (sts p')) := by
      rw [← et0, ← g0, getD_at (by simpa using hyl), List.getElem_map, getD_at hyl]
    have k1 : y (lastT g.t) = List.zipWith (· * ·) (ys.getD (ys.length - 1) []) (sizes U Γ φ (sts p')) := by
      rw [← et1, ← g1, getD_at (by simp; omega), List.getElem_map, getD_at (by omega)]
      simp
    have hread' := hread
    rw [f3, f4, f5, e1] at hread'
    have n8 := unscale_boundary hφ hcons' hquads hst hte hnd hG.bare.lt.le hR.tol hD hv0
      (n7 _ (by rw [getD_at (by omega)]; exact List.getElem_mem _)) hw0 hle k0 k1 hread'
    rw [← e1, ← f3, ← f4, ← f5] at n8
    exact n8

/-- The same for a call without autoscaling. -/
theorem call_boundary {S : Sympy} (hL : LuSound S) {o : Opts} {p p' q : Prob} (hp : Stated p) (hm : o.momentumShift = true)
    (hd : o.method ≠ .other) (h : indirect S o p = .ok p') (hq : primal S p = .ok q) {R : Solver} {g r : Sol ℝ} (hR : R.Ok)
    (hG : R.Starts p'.states.length g) (hrun : solveSol R U p' g = .ok (some r)) (hc : r.converged = true) :
    r.const = g.const ∧ r.t ≠ [] ∧ (∀ t ∈ r.t, t ∈ Set.Icc (g.t.getD 0 0) (lastT g.t)) ∧
      ∀ y : ℝ → List ℝ, r.y = .rows p'.states.length (r.t.map y) →
        ∃ w, bcFunc (real U) p' (y (g.t.getD 0 0)) [] (y (lastT g.t)) [] r.dyn r.nondyn g.const = .ok w ∧
          ∀ x ∈ w, |x| ≤ R.tol := by
  have hquads : p'.quads = [] := indirect_quads hL hp hm hd h hq
  obtain ⟨hst, -⟩ := indirect_shape hL hp hm hd h hq
  obtain ⟨h1, h2, h3, h4, h5, ys, h6, -, -, -, b, h7, h8⟩ := solveSol_ends hR hquads hst hG hrun hc
  refine ⟨h1, List.ne_nil_of_length_pos h2, h3, fun y hy => ?_⟩
  rw [hy] at h6
  obtain ⟨f0, f1⟩ := samples_ends (Arr.rows.inj h6).2.symm h2
  rw [f0, f1, h4, h5] at h7
  exact ⟨b, h7, h8⟩

/-! ### Property -/

/-- If a call of `Shooting` (Armijo iteration, one arc, the defaults) or of `SPBVP`, with the compiled functions of the generated
problem, reports convergence, and the states of the result are those of an exact solution `y` of the differential equations, then the
tables that the user gets for it are samples of a curve that satisfies the first-order necessary conditions of the stated problem up
to the tolerance of the solver.

Missing from the full property: errors of the integration, several arcs, the other algorithms of `Shooting` (`C42`); everything that
is missing from `C74_converged_partial`. -/
theorem C80_call_partial {S : Sympy} (hL : LuSound S) {o : Opts} {p p' : Prob} (hp : Stated p)
    (hm : o.momentumShift = true) (hd : o.method ≠ .other) (hS : o.controlMethod = .algebraic → SolveSound S)
    (h : indirect S o p = .ok p') :
    ∃ q B, primal S p = .ok q ∧ Barriers B ∧
      ∀ U Q, Completes U p Q → ∀ (O : TrigOps ℝ) rule, O.sin = Real.sin →
      ∀ (R : Solver) g r, R.Ok → R.Starts p'.states.length g → solveSol R U p' g = .ok (some r) → r.converged = true →
        (∀ x ∈ r.dyn, 0 < x) →
      ∀ y, r.y = .rows p'.states.length (r.t.map y) → Flows U p' (g.t.getD 0 0) (lastT g.t) y r.dyn g.const →
      ∀ ρ, Reads U p' (g.t.getD 0 0) (lastT g.t) y r.dyn r.nondyn g.const ρ → Regular S U q p' (g.t.getD 0 0) (lastT g.t) ρ →
      ∀ s', invIndirect S O rule (real U) o p r = .ok s' →
        ∃ t₀ c x lam ν₀ ν₁, 0 < c ∧
          NearExtremal (userOcp U Q B p) R.tol (if o.controlMethod = .algebraic then 0 else R.tol) t₀
            (t₀ + c * (lastT g.t - g.t.getD 0 0)) x lam ν₀ ν₁ ∧
          s'.t = r.t.map (fun τ => t₀ + c * (τ - g.t.getD 0 0)) ∧ Returned Q p x lam s' ∧ s'.const = g.const ∧
          (Rule rule → Shift rule → s'.cost = some (stated rule U p s'.t (fun i => Q (x (s'.t.getD i 0))) +
            penalised rule B U p s'.t fun i => Q (x (s'.t.getD i 0)))) ∧
          (o.controlMethod = .algebraic →
            Least S U q (userOcp U Q B p) t₀ (t₀ + c * (lastT g.t - g.t.getD 0 0)) x lam) ∧
          Drawn ρ (g.t.getD 0 0) t₀ c x lam ν₀ ν₁ := by
  obtain ⟨q, B, hq, hB, key⟩ := C74_converged_partial hL hp hm hd hS h
  refine ⟨q, B, hq, hB, ?_⟩
  intro U Q hQ O rule hO R g r hR hG hrun hc hpos y hy hflow ρ hread hreg s' hinv
  obtain ⟨m1, m2, m3, m4⟩ := call_boundary hL hp hm hd h hq hR hG hrun hc
  obtain ⟨t₀, c, x, lam, ν₀, ν₁, g1, g2, g3, g4, g5, -, -, g8⟩ := key U Q hQ O rule hO R.tol _ hR.tol rfl _ _ y r.dyn r.nondyn g.const ρ
    hG.bare.lt.le ⟨hflow, m4 y hy⟩ hread hreg hpos r s' m2 m3 hy rfl m1 hinv
  exact ⟨t₀, c, x, lam, ν₀, ν₁, g1, g2, g3, g4, g5, g8⟩

/-- With autoscaling: if a call of the solver on the scaled guess reports convergence, and the states of the unscaled result are
those of an exact solution `y` of the differential equations, then the tables that the user gets for it are samples of a curve that
satisfies the first-order necessary conditions of the stated problem up to `D` times the tolerance of the solver, where `D` is the
largest of the sizes of the units of the boundary conditions.

The problem is dimensionally consistent (`Consistent`, `LuDim`, `SolveDim`, `SwitchDim`) and the declared units of the generated
problem are those of `Γ` (`Agrees`); the factors are the sizes of these units (`Factored`; `C18_factors`).

Missing from the full property: errors of the integration, several arcs, the other algorithms of `Shooting` (`C42`); everything that
is missing from `C74_converged_partial`. -/
theorem C75_autoscaled_partial {S : Sympy} (hL : LuSound S) {o : Opts} {p p' : Prob} (hp : Stated p) (hH : p.hamiltonian = none)
    (hm : o.momentumShift = true) (hd : o.method ≠ .other) (hS : o.controlMethod = .algebraic → SolveSound S)
    (h : indirect S o p = .ok p') :
    ∃ q B, primal S p = .ok q ∧ Barriers B ∧
      ∀ U Q, Completes U p Q → ∀ (O : TrigOps ℝ) rule, O.sin = Real.sin →
      ∀ Γ φ T T', Sizes U Γ φ → Homog.LuDim U Γ S → (o.controlMethod = .algebraic → Homog.SolveDim U Γ S) →
        Homog.Consistent U Γ (Γ p.ind) p T → (∀ s ∈ p.switches, Homog.SwitchDim U Γ s) →
        Homog.indirectU S o (p, T) = .ok (p', T') → Homog.Agrees Γ T' →
        (sts p' ++ p'.controls ++ p'.parameters ++ p'.constraintParams ++ p'.constants).Nodup →
      ∀ D, Largest U φ T' D → ∀ (R : Solver) un g r, R.Ok → R.Starts p'.states.length g →
        Factored U Γ φ p' un g → solvePass R U p' (some un) g = .ok (some r) → r.converged = true → (∀ x ∈ r.dyn, 0 < x) →
      ∀ y, r.y = .rows p'.states.length (r.t.map y) → Flows U p' (g.t.getD 0 0) (lastT g.t) y r.dyn r.const →
      ∀ ρ, Reads U p' (g.t.getD 0 0) (lastT g.t) y r.dyn r.nondyn r.const ρ → Regular S U q p' (g.t.getD 0 0) (lastT g.t) ρ →
      ∀ s', invIndirect S O rule (real U) o p r = .ok s' →
        ∃ t₀ c x lam ν₀ ν₁, 0 < c ∧
          NearExtremal (userOcp U Q B p) (R.tol * D) (if o.controlMethod = .algebraic then 0 else R.tol * D) t₀
            (t₀ + c * (lastT g.t - g.t.getD 0 0)) x lam ν₀ ν₁ ∧
          s'.t = r.t.map (fun τ => t₀ + c * (τ - g.t.getD 0 0)) ∧ Returned Q p x lam s' ∧ s'.const = r.const ∧
          (Rule rule → Shift rule → s'.cost = some (stated rule U p s'.t (fun i => Q (x (s'.t.getD i 0))) +
            penalised rule B U p s'.t fun i => Q (x (s'.t.getD i 0)))) ∧
          (o.controlMethod = .algebraic →
            Least S U q (userOcp U Q B p) t₀ (t₀ + c * (lastT g.t - g.t.getD 0 0)) x lam) ∧
          Drawn ρ (g.t.getD 0 0) t₀ c x lam ν₀ ν₁ := by
  obtain ⟨q, B, hq, hB, key⟩ := C74_converged_partial hL hp hm hd hS h
  refine ⟨q, B, hq, hB, ?_⟩
  intro U Q hQ O rule hO Γ φ T T' hφ hLu hSo hcons hsw hU hag hnd D hD R un g r hR hG hF hrun hc hpos
  obtain ⟨m1, m2, m3, m4⟩ := pass_boundary hL hp hH hm hd h hq hφ hLu hSo hcons hsw hU hag hnd hD hR hG hF hrun hc
  intro y hy hflow ρ hread hreg s' hinv
  obtain ⟨t₀, c, x, lam, ν₀, ν₁, g1, g2, g3, g4, g5, -, -, g8⟩ := key U Q hQ O rule hO (R.tol * D) _ m1 rfl _ _ _ _ _ _ ρ
    hG.bare.lt.le ⟨hflow, m4 y ρ hy hread⟩ hread hreg hpos r s' m2 m3 hy rfl rfl hinv
  exact ⟨t₀, c, x, lam, ν₀, ν₁, g1, g2, g3, g4, g5, g8⟩

end Beluga.E2E
