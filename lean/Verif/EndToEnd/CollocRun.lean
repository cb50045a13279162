import Verif.EndToEnd.TopRun

/-!
# A run of `solve` with the collocation solver (C80)

A concrete `solve_bvp` that keeps scipy's promises: it halves the mesh of a guess with two nodes, and reports success if the boundary
conditions hold up to its tolerance.
-/

namespace Beluga.E2E

open Beluga.Sym Beluga.Sym.Expr Beluga.Num Beluga.Map Beluga.Opt Beluga.Rep
open Beluga.Shoot (Guess lastT Scipy)
open Beluga.Traj (Simpson)

/-- A mesh with two nodes gets a third one in the middle. -/
noncomputable def midway (x : List ℝ) (y : List (List ℝ)) : List ℝ × List (List ℝ) :=
  match x, y with
  | [a, b], [u, v] => ([a, (a + b) / 2, b], [u, List.zipWith (fun s t => (s + t) / 2) u v, v])
  | x, y => (x, y)

/-- The answer on the halved mesh. -/
noncomputable def halve (tol : ℝ) (prob : Beluga.Bvp.Stacked ℝ) : Py (Beluga.Bvp.Answer ℝ) :=
  let m := midway prob.x prob.y
  let p := if prob.p = [] then none else some prob.p
  if prob.y = [] ∨ prob.y.length ≠ prob.x.length then .error .valueError
  else do
    let _ ← prob.fn m.2 p
    let r ← prob.bc (m.2.getD 0 []) (m.2.getD (m.2.length - 1) []) p
    .ok ⟨m.1, m.2, p, decide (∀ x ∈ r, |x| ≤ tol)⟩

/-- `SPBVP` with this function and without Jacobians. -/
noncomputable def halver : Colloc := ⟨halve (1 / 10), fun _ => none, fun _ => none, 1 / 10⟩

theorem halve_ok {tol : ℝ} {prob : Beluga.Bvp.Stacked ℝ} {ans : Beluga.Bvp.Answer ℝ} (h : halve tol prob = .ok ans) :
    prob.y ≠ [] ∧ prob.y.length = prob.x.length ∧ ans.x = (midway prob.x prob.y).1 ∧ ans.y = (midway prob.x prob.y).2 ∧
      ans.p = (if prob.p = [] then none else some prob.p) ∧ (∃ v, prob.fn ans.y ans.p = .ok v) ∧
      ∃ r, prob.bc (ans.y.getD 0 []) (ans.y.getD (ans.y.length - 1) []) ans.p = .ok r ∧
        ans.success = decide (∀ x ∈ r, |x| ≤ tol) := by
  unfold halve at h
  dsimp only at h
  by_cases hc : prob.y = [] ∨ prob.y.length ≠ prob.x.length
  · rw [if_pos hc] at h
    cases h
  · rw [if_neg hc] at h
    rw [not_or, not_not] at hc
    obtain ⟨v, hv, h⟩ := bind_ok h
    obtain ⟨r, hr, h⟩ := bind_ok h
    cases h
    exact ⟨hc.1, hc.2, rfl, rfl, rfl, ⟨v, hv⟩, r, hr, rfl⟩

theorem midway_cases (x : List ℝ) (y : List (List ℝ)) :
    (∃ a b u v, x = [a, b] ∧ y = [u, v] ∧
      midway x y = ([a, (a + b) / 2, b], [u, List.zipWith (fun s t => (s + t) / 2) u v, v])) ∨ midway x y = (x, y) := by
  unfold midway
  split
  · exact .inl ⟨_, _, _, _, rfl, rfl, rfl⟩
  · exact .inr rfl

theorem halver_ok : (Solver.collocation halver).Ok := by
  refine Colloc.Ok.mk ⟨?_, ?_, ?_, ?_⟩ ?_ ?_ (by norm_num [halver])
  · intro prob ans h
    obtain ⟨h1, h2, h3, h4, -⟩ := halve_ok h
    rw [h3, h4]
    rcases midway_cases prob.x prob.y with ⟨a, b, u, v, -, -, e⟩ | e
    · rw [e]; simp
    · rw [e]; exact ⟨h1, h2⟩
  · intro prob ans w h _ hw r hr
    obtain ⟨-, -, -, h4, -⟩ := halve_ok h
    rw [h4] at hr
    rcases midway_cases prob.x prob.y with ⟨a, b, u, v, -, ey, e⟩ | e
    · rw [e] at hr
      rw [ey] at hw
      have hu := hw u (by simp)
      have hv := hw v (by simp)
      simp only [List.mem_cons, List.not_mem_nil, or_false] at hr
      rcases hr with rfl | rfl | rfl
      · exact hu
      · simp [hu, hv]
      · exact hv
    · rw [e] at hr
      exact hw r hr
  · intro prob ans h
    obtain ⟨-, -, -, -, h5, -⟩ := halve_ok h
    rw [h5]
    by_cases hp : prob.p = []
    · exact .inl ⟨hp, if_pos hp⟩
    · exact .inr ⟨hp, prob.p, if_neg hp, rfl⟩
  · intro prob ans h hs
    obtain ⟨-, -, -, -, -, -, r, hr, e⟩ := halve_ok h
    refine ⟨r, hr, ?_⟩
    rw [hs] at e
    exact of_decide_eq_true e.symm
  · intro prob ans h hx hl
    obtain ⟨-, -, h3, -⟩ := halve_ok h
    rw [h3]
    rcases midway_cases prob.x prob.y with ⟨a, b, u, v, ex, -, e⟩ | e
    · rw [e, ex]
      rw [ex] at hx
      simp at hx
      refine ⟨?_, by simp, rfl, rfl⟩
      simp
      refine ⟨⟨?_, hx⟩, ?_⟩ <;> linarith
    · rw [e]
      exact ⟨hx, hl, rfl, rfl⟩
  · intro prob ans h
    obtain ⟨-, -, -, -, -, h6, -⟩ := halve_ok h
    exact h6

/-- The guess: the ends of the line `fastRow`. -/
noncomputable def fastGuess : Sol ℝ := { slowSol with y := .rows 4 [fastRow 0, fastRow 1] }

/-- What the collocation solver makes of it. -/
noncomputable def fastSol : Sol ℝ :=
  { fastGuess with
    t := [0, 1 / 2, 1], y := .rows 4 [fastRow 0, fastRow (1 / 2), fastRow 1], q := .rows 0 [[], [], []],
    dual := .rows 4 [[0, 0, 0, 0], [0, 0, 0, 0], [0, 0, 0, 0]], converged := true }

theorem fastGuess_ok : (Solver.collocation halver).Starts 4 fastGuess where
  times := by simp [fastGuess, slowSol]
  two := by simp [fastGuess, slowSol]
  y := ⟨_, rfl, rfl, by simp [fastRow]⟩
  q := .inl ⟨rfl, rfl⟩
  u := .inl rfl

theorem fastBc (U : Name → Nat → ℝ → ℝ) :
    ∃ b, bcFn U exP' [fastRow 0, fastRow 1, [1], [101 / 50, 0, -(101 / 50)], [0]] = .ok b ∧ ∀ x ∈ b, |x| ≤ 1 / 10 := by
  obtain ⟨b, hb, hle⟩ := (fastNum U).boundary
  exact ⟨b, (bcFn_five exP'_rest.2.2.1 ..).trans hb, fun x hx => (hle x hx).trans (by norm_num)⟩

theorem fastColloc (U : Name → Nat → ℝ → ℝ) : solveSol (.collocation halver) U exP' fastGuess = .ok (some fastSol) := by
  obtain ⟨b, hb, hle⟩ := fastBc U
  have hmid : midway [0, 1] [fastRow 0, fastRow 1] = ([0, 1 / 2, 1], [fastRow 0, fastRow (1 / 2), fastRow 1]) := by
    simp [midway, fastRow]
    norm_num
  have hquad : quadFn U exP' = none := by rw [quadFn, quadFunc, exP'_rest.2.2.1]; rfl
  let A : Beluga.Bvp.Alg ℝ := { collocAlg halver U exP' with quad := some Beluga.Bvp.returnNil }
  let d : Beluga.Bvp.Dims := ⟨4, 0, 1, 3⟩
  let prob : Beluga.Bvp.Stacked ℝ := ⟨Beluga.Bvp.stackFun A d [0], Beluga.Bvp.stackBc A d [0], none, none, [0, 1],
    [fastRow 0, fastRow 1], [1, 101 / 50, 0, -(101 / 50)]⟩
  let ans : Beluga.Bvp.Answer ℝ := ⟨[0, 1 / 2, 1], [fastRow 0, fastRow (1 / 2), fastRow 1], some [1, 101 / 50, 0, -(101 / 50)], true⟩
  have hans : halve (1 / 10) prob = .ok ans := by
    have hf : prob.fn [fastRow 0, fastRow (1 / 2), fastRow 1] (some [1, 101 / 50, 0, -(101 / 50)]) =
        .ok [[101 / 100, 1, 0, 0], [101 / 100, 1, 0, 0], [101 / 100, 1, 0, 0]] := by
      have hd : ∀ τ ∈ Set.Icc (0 : ℝ) 1, eomFn U exP' [fastRow τ, [1], [0]] = .ok [101 / 100, 1, 0, 0] := fun τ hτ => fastRates U hτ
      have h1 := hd 0 (by norm_num)
      have h2 := hd (1 / 2) (by norm_num)
      have h3 := hd 1 (by norm_num)
      change (([fastRow 0, fastRow (1 / 2), fastRow 1].mapM fun yi => eomFn U exP' [yi.take 4, [1], [0]]) >>= Beluga.Bvp.vstack) = _
      rw [Num.mapM_ok (g := fun _ => [101 / 100, 1, 0, 0])]
      · rw [Num.ok_bind]
        simp [Beluga.Bvp.vstack]
      · intro r hr
        simp only [List.mem_cons, List.not_mem_nil, or_false] at hr
        rcases hr with rfl | rfl | rfl
        · exact h1
        · exact h2
        · exact h3
    have hp : (if prob.p = [] then none else some prob.p) = some [1, 101 / 50, 0, -(101 / 50)] := rfl
    rw [halve]
    rw [hp, show midway prob.x prob.y = _ from hmid, if_neg (by simp [prob])]
    dsimp only
    rw [hf, Num.ok_bind]
    refine (congrArg (· >>= _) (hb : prob.bc (fastRow 0) (fastRow 1) (some [1, 101 / 50, 0, -(101 / 50)]) = _)).trans ?_
    change Except.ok _ = Except.ok _
    rw [decide_eq_true hle]
  have hsolve : Beluga.Bvp.solve halver.bvp (collocAlg halver U exP') [toBvp fastGuess] 0 = (A, [toBvp fastGuess, toBvp fastSol], .ok 1) := by
    have h1 : Beluga.Bvp.dims (collocAlg halver U exP') (toBvp fastGuess) = (A, .ok d) := rfl
    have h2 : Beluga.Bvp.stacked A d (toBvp fastGuess) = .ok prob := rfl
    have h3 : halver.bvp prob = .ok ans := hans
    unfold Beluga.Bvp.solve
    simp only [List.getElem?_cons_zero, h1, h2, h3]
    rfl
  change (match (Beluga.Bvp.solve halver.bvp (collocAlg halver U exP') [toBvp fastGuess] 0).2.2 with
    | .error e => .error e
    | .ok ref => match (Beluga.Bvp.solve halver.bvp (collocAlg halver U exP') [toBvp fastGuess] 0).2.1[ref]? with
      | some x => .ok (some (fromBvp fastGuess x))
      | none => .error .attributeError : Py (Option (Sol ℝ))) = _
  rw [hsolve]
  rfl

/-- `solve` with `bvp_algorithm='SPBVP'` and without continuation steps. -/
noncomputable def collConfig (U : Name → Nat → ℝ → ℝ) (O : TrigOps ℝ) (log : LogOps ℝ) : Config where
  sympy := exS
  trig := O
  rule := trapezoids
  functions := U
  opts := exO
  solver := .collocation halver
  log := log
  fuel := 0
  steps := none

/-- The other parts of the world: the guess is `fastGuess`. -/
noncomputable def collWorld : Solve.World Prob Bvp (Sol ℝ) := { exWorld with generate := fun _ _ _ => .ok fastGuess }

/-- `solve` returns one solution with three nodes, flagged as converged, and its tables are samples of an extremal up to 1/10. -/
example (U : Name → Nat → ℝ → ℝ) (O : TrigOps ℝ) (hO : O.sin = Real.sin) (log : LogOps ℝ) :
    ∃ s', (Solve.solve (world (collConfig U O log) collWorld) exArgs).1 = .ok [[s']] ∧ s'.converged = true ∧ s'.t = [0, 1 / 2, 1] ∧
      ∃ B x lam ν₀ ν₁, NearExtremal (userOcp U exQ B exP) (1 / 10) 0 0 1 x lam ν₀ ν₁ ∧ Returned exQ exP x lam s' := by
  have hpass : solvePass (.collocation halver) U exP' none fastGuess = .ok (some fastSol) := fastColloc U
  obtain ⟨s', hs'⟩ : ∃ s', invIndirect exS O trapezoids (real U) exO exP fastSol = .ok s' := by
    refine ok_of ?_
    rfl
  have hmeth : (collConfig U O log).opts.method = if exArgs.method.toLower = "diffyg" then .diffyg else .traditional :=
    (if_neg (by decide +kernel)).symm
  obtain ⟨b, f, hprep, hbp⟩ := prepare_ok (c := collConfig U O log) (w := collWorld) (a := exArgs) (p := exP) rfl
    (by decide +kernel) hmeth exP'_ok
  have hrun : runSet (collConfig U O log) b fastGuess = .ok [[fastSol]] := by
    have : pass (collConfig U O log) b.prob 0 (toTraj fastGuess) = .ok (toTraj fastSol) := by
      rw [pass, hbp]
      refine (congrArg (· >>= _) hpass).trans ?_
      rfl
    have := Cont.C15_no_steps (L := log) (names := b.prob.constants) 0 _ _ this
    change (match Cont.runContinuationSet log (pass (collConfig U O log) b.prob) b.prob.constants 0 none (toTraj fastGuess) with
      | .returned l => .ok (l.map fun l => l.map ofTraj)
      | .raised e => .error e
      | .running => .error .runtimeError : Py _) = _
    rw [this]
    rfl
  have hsolve : (Solve.solve (world (collConfig U O log) collWorld) exArgs).1 = .ok [[s']] := by
    have hmain : Solve.main (world (collConfig U O log) collWorld) exArgs exP =
        .ok (b, invIndirect exS O trapezoids (real U) exO exP, [[fastSol]]) := by
      rw [Solve.main, hprep, Num.ok_bind]
      change (runSet (collConfig U O log) b fastGuess >>= _) = _
      rw [hrun]
      rfl
    have hpost : Solve.postprocessContinuations (invIndirect exS O trapezoids (real U) exO exP) [[fastSol]] = .ok [[s']] := by
      rw [Solve.postprocessContinuations]
      simp [hs']
    exact solve_value (by decide) rfl rfl hmain hpost
  obtain ⟨b', g, q, B, calls, hand, e1, hq, -, -, -, hnone, hall⟩ := C77_solve_partial (c := collConfig U O log) (w := collWorld)
    (a := exArgs) (luSound_cramer exS rfl) (fun _ => exS_sound) rfl halver_ok hO rfl exP_stated rfl rfl
    (by decide +kernel) hmeth (by
      rintro b s ⟨f, inv, s0, s1, h1, h2, h3, h4⟩
      obtain ⟨e1, -⟩ := prepare_world (c := collConfig U O log) (w := collWorld) (a := exArgs) rfl (by decide +kernel) hmeth h1
      have e1 : indirect exS exO exP = .ok b.prob := e1
      rw [exP'_ok] at e1
      cases h2
      cases h3
      cases h4
      rw [← Except.ok.inj e1]
      exact ⟨by rw [show exP'.states.length = 4 by decide +kernel]; exact fastGuess_ok,
        by rw [show exP'.constants.length = 1 by decide +kernel]; rfl⟩) hsolve
  have e1 : indirect exS exO exP = .ok b'.prob := e1
  rw [exP'_ok] at e1
  have e1 := Except.ok.inj e1
  have hg : g = fastGuess := by
    obtain ⟨f, inv, s0, s1, -, h2, h3, h4⟩ := hand
    cases h2
    cases h3
    cases h4
    rfl
  have hq : primal exS exP = .ok q := hq
  rw [exq_ok] at hq
  cases hq
  subst hg
  obtain ⟨r', rfl⟩ := hnone rfl
  cases hall with
  | cons h5 h6 =>
    cases h5 with
    | cons h7 h8 =>
      dsimp only at h7
      rw [← e1] at h7
      obtain ⟨-, k2, k3, -, k5, k6⟩ := h7
      have k2 : solvePass (.collocation halver) U exP' none fastGuess = .ok (some r') := k2
      rw [hpass] at k2
      simp only [Except.ok.injEq, Option.some.injEq] at k2
      subst k2
      have hcv : s'.converged = true := k5
      have ht : s'.t = [0, 1 / 2, 1] ∧ s'.const = [0] := by
        have hs' := hs'
        cases hs'
        exact ⟨rfl, rfl⟩
      obtain ⟨t₀, e, x, lam, ν₀, ν₁, he, hext, ht', hret, -⟩ := k6 hcv (by simp [fastSol, fastGuess, slowSol])
        exQ (exQ_completes U) fastRow (by rw [show exP'.states.length = 4 by decide +kernel]; rfl)
        (by rw [ht.2]; exact (fastNum U).rates) fast
        (by rw [ht.2]; exact fastRead U) (fastRegular U)
      have hlast : lastT fastGuess.t = 1 := rfl
      have hfirst : fastGuess.t.getD 0 0 = 0 := rfl
      have ht0 : t₀ = 0 ∧ e = 1 := by
        rw [ht.1, show fastSol.t = [0, 1 / 2, 1] from rfl, hfirst] at ht'
        simp at ht'
        exact ⟨ht'.1.symm, by linarith [ht'.1, ht'.2.2]⟩
      obtain ⟨rfl, rfl⟩ := ht0
      rw [hlast, hfirst] at hext
      exact ⟨s', hsolve, hcv, ht.1, B, x, lam, ν₀, ν₁, by simpa [exO, collConfig, halver, Solver.tol] using hext, hret⟩

end Beluga.E2E
