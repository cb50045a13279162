import Verif.EndToEnd.Top
import Verif.EndToEnd.Run

/-!
# A run of `solve` (C77)
-/

namespace Beluga.E2E

open Beluga.Sym Beluga.Sym.Expr Beluga.Num Beluga.Map Beluga.Opt Beluga.Rep
open Beluga.Shoot (Ivp IvpSound Complete NormSound Guess lastT Scipy Result)
open Beluga.Traj (Curve Simpson)

theorem prepare_ok {c : Config} {w : Solve.World Prob Bvp (Sol ℝ)} {a : Solve.Args Prob Bvp (Sol ℝ)} {p p' : Prob}
    (hb : a.bvp = none) (hmeth : a.method.toLower ∈ ["indirect", "traditional", "brysonho", "diffyg"])
    (hd : c.opts.method = if a.method.toLower = "diffyg" then .diffyg else .traditional)
    (h : indirect c.sympy c.opts p = .ok p') :
    ∃ b f, Solve.prepare (world c w) a p = .ok (b, f, invIndirect c.sympy c.trig c.rule (real c.functions) c.opts p) ∧ b.prob = p' := by
  obtain ⟨p1, h1, h⟩ := bind_ok h
  obtain ⟨steps, h2, h⟩ := bind_ok h
  obtain ⟨k1, k2⟩ := canonical_method hmeth hd
  have ho : { c.opts with method := methodOf (Solve.canonical a.method) } = c.opts := by rw [k2]
  have hi : makeIndirect c.sympy c.opts p1 (Solve.canonical a.method) = .ok ⟨p1, steps, p'⟩ := by
    rw [makeIndirect, ho, h2, Num.ok_bind, h, Num.ok_bind]
  have hdis : Solve.dispatch (world c w) a.method p1 = .ok ⟨p1, steps, p'⟩ := by
    rw [Solve.dispatch, if_pos k1]
    exact hi
  have hprep : Solve.prepare (world c w) a p = .ok (⟨p1, steps, p'⟩, (world c w).mapOf ⟨p1, steps, p'⟩, (world c w).invOf ⟨p1, steps, p'⟩) := by
    unfold Solve.prepare
    rw [hb]
    dsimp only
    rw [show (world c w).preprocess p = .ok p1 from h1, Num.ok_bind, hdis, Num.ok_bind]
    rfl
  refine ⟨⟨p1, steps, p'⟩, (world c w).mapOf ⟨p1, steps, p'⟩, ?_, rfl⟩
  rw [hprep]
  congr 3
  funext s
  rw [invIndirect, h1, Num.ok_bind, h2, Num.ok_bind]
  rfl

theorem solve_value {w : Solve.World Prob Bvp (Sol ℝ)} {a : Solve.Args Prob Bvp (Sol ℝ)} {p : Prob} (hn : ¬ a.nCpus < 1)
    (ha : a.ocp = some p) (hs : a.saveSols = .flag false) {b : Bvp} {inv : Solve.SolMap (Sol ℝ)} {set out : List (List (Sol ℝ))}
    (h : Solve.main w a p = .ok (b, inv, set)) (ho : Solve.postprocessContinuations inv set = .ok out) :
    (Solve.solve w a).1 = .ok out := by
  unfold Solve.solve
  rw [if_neg hn]
  dsimp only
  rw [ha]
  dsimp only
  rw [h]
  dsimp only
  rw [ho, hs]
  rfl

/-- The guess of the run `slowRun`. -/
noncomputable def slowSol : Sol ℝ where
  t := [0, 1]
  dualT := []
  y := .rows 4 [[0, 0, -1, 0], [1, 1, -1, 0]]
  dual := .empty
  q := .empty
  u := .empty
  dualU := .empty
  dyn := [1]
  nondyn := [101 / 50, 0, -(101 / 50)]
  const := [0]
  converged := false
  cost := none

/-- The solver of the run `slowRun`. -/
noncomputable def slowSolver (simp : Simpson ℝ) (Sc : Scipy ℝ) : Solver := .shooting {
  ivp := step
  simpson := simp
  scipy := Sc
  norm := euclid
  newton := exNewton
  opts := ⟨1 / 10, 100, 10⟩
  alg := "Armijo"
  fuel := 5 }

theorem slowSolver_ok (simp : Simpson ℝ) (Sc : Scipy ℝ) : (slowSolver simp Sc).Ok :=
  Shooter.Ok.mk step_sound step_complete Shoot.euclid_sound
    (by change "Armijo".toLower = "armijo"; decide +kernel) (le_refl 5) (by norm_num)

/-- `solve` for the example problem without continuation steps. -/
noncomputable def exConfig (U : Name → Nat → ℝ → ℝ) (O : TrigOps ℝ) (simp : Simpson ℝ) (Sc : Scipy ℝ) (log : LogOps ℝ) : Config where
  sympy := exS
  trig := O
  rule := trapezoids
  functions := U
  opts := exO
  solver := slowSolver simp Sc
  log := log
  fuel := 0
  steps := none

/-- The other parts of the world: the guess is `slowSol`. -/
noncomputable def exWorld : Solve.World Prob Bvp (Sol ℝ) where
  preprocess := .ok
  indirect := fun _ _ => .error .valueError
  direct := fun _ => .error .valueError
  postprocess := .ok
  mapOf := fun _ => .ok
  invOf := fun _ => .ok
  generate := fun _ _ _ => .ok slowSol
  matchConst := fun _ s => .ok s
  setConst := fun s z => { s with const := z.const }
  computeU := fun _ => none
  run := fun _ _ => .ok []
  save := fun _ _ _ _ => .ok ()

/-- `solve(ocp=exP, method='indirect', save_sols=False, …)`. -/
def exArgs : Solve.Args Prob Bvp (Sol ℝ) := { ocp := some exP, method := "indirect", saveSols := .flag false }

/-- `solve` returns one solution, flagged as converged, and its tables are samples of an extremal up to 1/10. -/
example (U : Name → Nat → ℝ → ℝ) (O : TrigOps ℝ) (hO : O.sin = Real.sin) (simp : Simpson ℝ) (Sc : Scipy ℝ) (log : LogOps ℝ) :
    ∃ s', (Solve.solve (world (exConfig U O simp Sc log) exWorld) exArgs).1 = .ok [[s']] ∧ s'.converged = true ∧ s'.t.length = 2 ∧
      ∃ B x lam ν₀ ν₁, NearExtremal (userOcp U exQ B exP) (1 / 10) 0 0 1 x lam ν₀ ν₁ ∧ Returned exQ exP x lam s' := by
  obtain ⟨r, hr, hc, h1, h2, h3, h4⟩ := slowRun U simp Sc
  have hpass : solvePass (slowSolver simp Sc) U exP' none slowSol = .ok (some (fromResult slowSol r)) := by
    change (Shoot.solve _ _ _ _ _ _ _ _ _ _ _ >>= _) = _
    refine (congrArg (· >>= _) hr).trans ?_
    rfl
  have hrt : fromResult slowSol r = { slowSol with
      t := [0, 1], y := .rows 4 [fastRow 0, fastRow 1], q := .empty, u := .empty, dyn := [1], nondyn := [101 / 50, 0, -(101 / 50)],
      converged := true } := by
    have hq : ofRows r.q = .empty := (shootSol_guess (slowSolver_ok simp Sc) (s := slowSol) slow_ok hpass).2.2
    rw [fromResult, hq, h1, h2, h3, h4, hc]
    rfl
  obtain ⟨s', hs'⟩ : ∃ s', invIndirect exS O trapezoids (real U) exO exP (fromResult slowSol r) = .ok s' := by
    rw [hrt]
    refine ok_of ?_
    rfl
  have hmeth : (exConfig U O simp Sc log).opts.method = if exArgs.method.toLower = "diffyg" then .diffyg else .traditional :=
    (if_neg (by decide +kernel)).symm
  obtain ⟨b, f, hprep, hbp⟩ := prepare_ok (c := exConfig U O simp Sc log) (w := exWorld) (a := exArgs) (p := exP) rfl
    (by decide +kernel) hmeth exP'_ok
  have hrun : runSet (exConfig U O simp Sc log) b slowSol = .ok [[fromResult slowSol r]] := by
    have : pass (exConfig U O simp Sc log) b.prob 0 (toTraj slowSol) = .ok (toTraj (fromResult slowSol r)) := by
      rw [pass, hbp]
      refine (congrArg (· >>= _) hpass).trans ?_
      rfl
    have := Cont.C15_no_steps (L := log) (names := b.prob.constants) 0 _ _ this
    change (match Cont.runContinuationSet log (pass (exConfig U O simp Sc log) b.prob) b.prob.constants 0 none (toTraj slowSol) with
      | .returned l => .ok (l.map fun l => l.map ofTraj)
      | .raised e => .error e
      | .running => .error .runtimeError : Py _) = _
    rw [this]
    rfl
  have hsolve : (Solve.solve (world (exConfig U O simp Sc log) exWorld) exArgs).1 = .ok [[s']] := by
    have hmain : Solve.main (world (exConfig U O simp Sc log) exWorld) exArgs exP =
        .ok (b, invIndirect exS O trapezoids (real U) exO exP, [[fromResult slowSol r]]) := by
      rw [Solve.main, hprep, Num.ok_bind]
      change (runSet (exConfig U O simp Sc log) b slowSol >>= _) = _
      rw [hrun]
      rfl
    have hpost : Solve.postprocessContinuations (invIndirect exS O trapezoids (real U) exO exP) [[fromResult slowSol r]] = .ok [[s']] := by
      rw [Solve.postprocessContinuations]
      simp [hs']
    exact solve_value (by decide) rfl rfl hmain hpost
  obtain ⟨b', g, q, B, calls, hand, e1, hq, -, -, -, hnone, hall⟩ := C77_solve_partial (c := exConfig U O simp Sc log) (w := exWorld)
    (a := exArgs) (luSound_cramer exS rfl) (fun _ => exS_sound) rfl (slowSolver_ok simp Sc) hO rfl exP_stated rfl rfl
    (by decide +kernel) hmeth (by
      rintro b s ⟨f, inv, s0, s1, h1, h2, h3, h4⟩
      obtain ⟨e1, -⟩ := prepare_world (c := exConfig U O simp Sc log) (w := exWorld) (a := exArgs) rfl (by decide +kernel) hmeth h1
      have e1 : indirect exS exO exP = .ok b.prob := e1
      rw [exP'_ok] at e1
      cases h2
      cases h3
      cases h4
      rw [← Except.ok.inj e1]
      exact ⟨by rw [show exP'.states.length = 4 by decide +kernel]; exact slow_ok,
        by rw [show exP'.constants.length = 1 by decide +kernel]; rfl⟩) hsolve
  have e1 : indirect exS exO exP = .ok b'.prob := e1
  rw [exP'_ok] at e1
  have e1 := Except.ok.inj e1
  have hg : g = slowSol := by
    obtain ⟨f, inv, s0, s1, -, h2, h3, h4⟩ := hand
    cases h2
    cases h3
    cases h4
    rfl
  have hq : primal exS exP = .ok q := hq
  rw [exq_ok] at hq
  cases hq
  subst hg
  obtain ⟨r', rfl⟩ := hnone rfl
  cases hall with
  | cons h5 h6 =>
    cases h5 with
    | cons h7 h8 =>
      dsimp only at h7
      rw [← e1] at h7
      obtain ⟨-, k2, k3, -, k5, k6⟩ := h7
      have k2 : solvePass (slowSolver simp Sc) U exP' none slowSol = .ok (some r') := k2
      rw [hpass] at k2
      simp only [Except.ok.injEq, Option.some.injEq] at k2
      subst k2
      have hcv : s'.converged = true := k5.trans hc
      have ht : s'.t = [0, 1] ∧ s'.const = [0] := by
        have hs' := hs'
        rw [hrt] at hs'
        cases hs'
        exact ⟨rfl, rfl⟩
      obtain ⟨t₀, e, x, lam, ν₀, ν₁, he, hext, ht', hret, -⟩ := k6 hcv (by rw [show (fromResult slowSol r).dyn = r.p from rfl, h3]; simp)
        exQ (exQ_completes U) fastRow (by rw [hrt, show exP'.states.length = 4 by decide +kernel]; rfl)
        (by rw [ht.2, show (fromResult slowSol r).dyn = r.p from rfl, h3]; exact (fastNum U).rates) fast
        (by
          rw [ht.2, show (fromResult slowSol r).dyn = r.p from rfl, show (fromResult slowSol r).nondyn = r.pn from rfl, h3, h4]
          exact fastRead U) (fastRegular U)
      have hlast : lastT slowSol.t = 1 := rfl
      have hfirst : slowSol.t.getD 0 0 = 0 := rfl
      have ht0 : t₀ = 0 ∧ e = 1 := by
        rw [ht.1, show (fromResult slowSol r).t = r.t from rfl, h1, hfirst] at ht'
        simp at ht'
        exact ⟨ht'.1.symm, by linarith [ht'.1, ht'.2]⟩
      obtain ⟨rfl, rfl⟩ := ht0
      rw [hlast, hfirst] at hext
      exact ⟨s', hsolve, hcv, by rw [ht.1]; rfl, B, x, lam, ν₀, ν₁, by simpa [exO, exConfig, slowSolver, Solver.tol] using hext, hret⟩

end Beluga.E2E
