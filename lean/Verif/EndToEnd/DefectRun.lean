import Verif.EndToEnd.Defect
import Verif.EndToEnd.TopScaled
import Verif.EndToEnd.CollocRun

/-! # What `solve` returns, with the errors of the integration (C81) -/

namespace Beluga.E2E

open Beluga.Sym Beluga.Sym.Expr Beluga.Num Beluga.Map Beluga.Opt Beluga.Rep
open Beluga.Shoot (lastT)

theorem forall₂_zip {α β : Type} {R T W : α → β → Prop} {l : List α} {l' : List β} (h : List.Forall₂ R l l')
    (h' : List.Forall₂ T l l') (hW : ∀ a b, R a b → T a b → W a b) : List.Forall₂ W l l' := by
  induction h with
  | nil => exact .nil
  | cons hab _ ih =>
    cases h' with
    | cons hab' h' => exact .cons (hW _ _ hab hab') (ih h')

/-- If a call of `Shooting` or of `SPBVP` reports convergence, then for every curve `y` through the rows of the result, whatever its
defect `δ` in the compiled differential equations: the tables that the user gets are samples of a curve that satisfies the
first-order necessary conditions of the stated problem up to the tolerance and the defect.

Missing from the full property: several arcs and the other algorithms of `Shooting` (`C42`); what is missing from
`C81_defect_partial`. -/
theorem C81_call_partial {S : Sympy} (hL : LuSound S) {o : Opts} {p p' : Prob} (hp : Stated p)
    (hm : o.momentumShift = true) (hd : o.method ≠ .other) (hS : o.controlMethod = .algebraic → SolveSound S)
    (h : indirect S o p = .ok p') :
    ∃ q B, primal S p = .ok q ∧ Barriers B ∧
      ∀ U Q, Completes U p Q → ∀ (O : TrigOps ℝ) rule, O.sin = Real.sin →
      ∀ (R : Solver) g r, R.Ok → R.Starts p'.states.length g → solveSol R U p' g = .ok (some r) → r.converged = true →
        (∀ x ∈ r.dyn, 0 < x) →
      ∀ y, r.y = .rows p'.states.length (r.t.map y) →
      ∀ a b, a = g.t.getD 0 0 → b = lastT g.t →
      ∀ δ M N V η, 0 ≤ δ → 0 ≤ N → η = (if o.controlMethod = .algebraic then 0 else R.tol + δ * N * (b - a)) →
        Strays U p' δ a b y r.dyn g.const →
      ∀ ρ, Reads U p' a b y r.dyn r.nondyn g.const ρ → Regular S U q p' a b ρ → Sized U q M N V a b ρ →
      ∀ s', invIndirect S O rule (real U) o p r = .ok s' →
        ∃ t₀ c x lam ν₀ ν₁, 0 < c ∧ c = (if o.normalizeTime then ρ a ("_delta_" ++ p.ind) else 1) ∧
          DefectExtremal (userOcp U Q B p) R.tol η (δ / c) ((δ * M + η * V) * (b - a)) t₀ (t₀ + c * (b - a)) x lam ν₀ ν₁ ∧
          s'.t = r.t.map (fun τ => t₀ + c * (τ - a)) ∧ Returned Q p x lam s' ∧ s'.const = g.const ∧
          s'.dualT.length = s'.t.length ∧
          (∀ tl ∈ s'.t.zip s'.dualT, |(userOcp U Q B p).ham (lam tl.1) (x tl.1) + tl.2| ≤ R.tol + (δ * M + η * V) * (b - a)) ∧
          (Rule rule → Shift rule → s'.cost = some (stated rule U p s'.t (fun i => Q (x (s'.t.getD i 0))) +
            penalised rule B U p s'.t fun i => Q (x (s'.t.getD i 0)))) ∧
          (o.controlMethod = .algebraic → Least S U q (userOcp U Q B p) t₀ (t₀ + c * (b - a)) x lam) ∧ Drawn ρ a t₀ c x lam ν₀ ν₁ := by
  obtain ⟨q, B, hq, hB, key⟩ := C81_defect_partial hL hp hm hd hS h
  refine ⟨q, B, hq, hB, ?_⟩
  intro U Q hQ O rule hO R g r hR hG hrun hc hpos y hy a b rfl rfl δ M N V η hδ hN hη hst ρ hread hreg hz s' hinv
  obtain ⟨m1, m2, m3, m4⟩ := call_boundary hL hp hm hd h hq hR hG hrun hc
  exact key U Q hQ O rule hO _ _ R.tol η δ M N V hR.tol hδ hN hη y r.dyn r.nondyn g.const ρ hG.bare.lt.le ⟨hst, m4 y hy⟩ hread hreg
    hz hpos r s' m2 m3 hy rfl m1 hinv

/-- The same for a call with autoscaling, with the tolerance times `D`, the largest of the sizes of the units of the boundary
conditions.

Missing from the full property: what is missing from `C81_call_partial`. -/
theorem C81_autoscaled_partial {S : Sympy} (hL : LuSound S) {o : Opts} {p p' : Prob} (hp : Stated p) (hH : p.hamiltonian = none)
    (hm : o.momentumShift = true) (hd : o.method ≠ .other) (hS : o.controlMethod = .algebraic → SolveSound S)
    (h : indirect S o p = .ok p') :
    ∃ q B, primal S p = .ok q ∧ Barriers B ∧
      ∀ U Q, Completes U p Q → ∀ (O : TrigOps ℝ) rule, O.sin = Real.sin →
      ∀ Γ φ T T', Sizes U Γ φ → Dimensional U Γ S o p p' T T' →
      ∀ D, Largest U φ T' D → ∀ (R : Solver) un g r, R.Ok → R.Starts p'.states.length g →
        Factored U Γ φ p' un g → solvePass R U p' (some un) g = .ok (some r) → r.converged = true → (∀ x ∈ r.dyn, 0 < x) →
      ∀ y, r.y = .rows p'.states.length (r.t.map y) →
      ∀ a b ε, a = g.t.getD 0 0 → b = lastT g.t → ε = R.tol * D →
      ∀ δ M N V η, 0 ≤ δ → 0 ≤ N → η = (if o.controlMethod = .algebraic then 0 else ε + δ * N * (b - a)) →
        Strays U p' δ a b y r.dyn r.const →
      ∀ ρ, Reads U p' a b y r.dyn r.nondyn r.const ρ → Regular S U q p' a b ρ → Sized U q M N V a b ρ →
      ∀ s', invIndirect S O rule (real U) o p r = .ok s' →
        ∃ t₀ c x lam ν₀ ν₁, 0 < c ∧ c = (if o.normalizeTime then ρ a ("_delta_" ++ p.ind) else 1) ∧
          DefectExtremal (userOcp U Q B p) ε η (δ / c) ((δ * M + η * V) * (b - a)) t₀ (t₀ + c * (b - a)) x lam ν₀ ν₁ ∧
          s'.t = r.t.map (fun τ => t₀ + c * (τ - a)) ∧ Returned Q p x lam s' ∧ s'.const = r.const ∧
          s'.dualT.length = s'.t.length ∧
          (∀ tl ∈ s'.t.zip s'.dualT, |(userOcp U Q B p).ham (lam tl.1) (x tl.1) + tl.2| ≤ ε + (δ * M + η * V) * (b - a)) ∧
          (Rule rule → Shift rule → s'.cost = some (stated rule U p s'.t (fun i => Q (x (s'.t.getD i 0))) +
            penalised rule B U p s'.t fun i => Q (x (s'.t.getD i 0)))) ∧
          (o.controlMethod = .algebraic → Least S U q (userOcp U Q B p) t₀ (t₀ + c * (b - a)) x lam) ∧ Drawn ρ a t₀ c x lam ν₀ ν₁ := by
  obtain ⟨q, B, hq, hB, key⟩ := C81_defect_partial hL hp hm hd hS h
  refine ⟨q, B, hq, hB, ?_⟩
  intro U Q hQ O rule hO Γ φ T T' hφ hdim D hD R un g r hR hG hF hrun hc hpos y hy a b ε rfl rfl rfl δ M N V η hδ hN hη hst ρ hread
    hreg hz s' hinv
  obtain ⟨m1, m2, m3, m4⟩ := pass_boundary hL hp hH hm hd h hq hφ hdim.lu hdim.solve hdim.stated hdim.switches hdim.generated
    hdim.agrees hdim.names hD hR hG hF hrun hc
  exact key U Q hQ O rule hO _ _ _ η δ M N V m1 hδ hN hη y r.dyn r.nondyn r.const ρ hG.bare.lt.le ⟨hst, m4 y ρ hy hread⟩ hread hreg
    hz hpos r s' m2 m3 hy rfl rfl hinv

/-- Whatever `solve` returns for a stated problem (an indirect method, no autoscaling): the returned trajectories are the results of the
solver calls, mapped back, for the constants reported with them, and each one that is flagged as converged consists of samples of a
curve that satisfies the first-order necessary conditions up to the tolerance of the solver and the defect of any curve through the
rows that the solver returned.

Missing from the full property: autoscaling (see `C81_solve_autoscaled_partial`); what is missing from `C81_call_partial`. -/
theorem C81_solve_partial {c : Config} (hL : LuSound c.sympy) (hS : c.opts.controlMethod = .algebraic → SolveSound c.sympy)
    (hm : c.opts.momentumShift = true) (hR : c.solver.Ok) (hO : c.trig.sin = Real.sin) (hun : c.units = none)
    {w : Solve.World Prob Bvp (Sol ℝ)} {a : Solve.Args Prob Bvp (Sol ℝ)} {p : Prob} (hp : Stated p) (ha : a.ocp = some p)
    (hb : a.bvp = none) (hmeth : a.method.toLower ∈ ["indirect", "traditional", "brysonho", "diffyg"])
    (hd : c.opts.method = if a.method.toLower = "diffyg" then .diffyg else .traditional)
    (hfit : ∀ b s, Handed (world c w) a p b s → Fit c.solver b.prob s) {out : List (List (Sol ℝ))}
    (h : (Solve.solve (world c w) a).1 = .ok out) :
    ∃ b s q B calls, Handed (world c w) a p b s ∧ indirect c.sympy c.opts p = .ok b.prob ∧ primal c.sympy p = .ok q ∧
      Barriers B ∧ Warm s calls.flatten ∧
      List.Forall₂ (List.Forall₂ fun (x : Sol ℝ × Sol ℝ) s' =>
        solvePass c.solver c.functions b.prob none x.1 = .ok (some x.2) ∧
        invIndirect c.sympy c.trig c.rule (real c.functions) c.opts p x.2 = .ok s' ∧ s'.const = x.1.const ∧
        s'.converged = x.2.converged ∧
        (s'.converged = true → (∀ d ∈ x.2.dyn, 0 < d) → ∀ Q, Completes c.functions p Q →
          ∀ y, x.2.y = .rows b.prob.states.length (x.2.t.map y) → ∀ t₁ t₂, t₁ = x.1.t.getD 0 0 → t₂ = lastT x.1.t →
          ∀ δ M N V η, 0 ≤ δ → 0 ≤ N → η = (if c.opts.controlMethod = .algebraic then 0 else c.solver.tol + δ * N * (t₂ - t₁)) →
            Strays c.functions b.prob δ t₁ t₂ y x.2.dyn s'.const →
          ∀ ρ, Reads c.functions b.prob t₁ t₂ y x.2.dyn x.2.nondyn s'.const ρ → Regular c.sympy c.functions q b.prob t₁ t₂ ρ →
            Sized c.functions q M N V t₁ t₂ ρ →
          ∃ t₀ e z lam ν₀ ν₁, 0 < e ∧
            DefectExtremal (userOcp c.functions Q B p) c.solver.tol η (δ / e) ((δ * M + η * V) * (t₂ - t₁)) t₀
              (t₀ + e * (t₂ - t₁)) z lam ν₀ ν₁ ∧
            s'.t = x.2.t.map (fun τ => t₀ + e * (τ - t₁)) ∧ Returned Q p z lam s' ∧
            Drawn ρ t₁ t₀ e z lam ν₀ ν₁)) calls out := by
  obtain ⟨b, s, q, B₀, calls, h1, h2, h3, -, -, h6, -, h8⟩ := C77_solve_partial hL hS hm hR hO hun hp ha hb hmeth hd hfit h
  have hd' : c.opts.method ≠ .other := by
    rw [hd]
    split <;> decide
  obtain ⟨q', B, hq, hB, key⟩ := C81_call_partial hL hp hm hd' hS h2
  rw [h3] at hq
  cases hq
  refine ⟨b, s, q, B, calls, h1, h2, h3, hB, h6, ?_⟩
  refine h8.imp fun l l' hll => hll.imp fun x s' hx => ?_
  obtain ⟨k1, k2, k3, k4, k5, -⟩ := hx
  refine ⟨k2, k3, k4, k5, ?_⟩
  intro hc hpos Q hQ y hy t₁ t₂ ht₁ ht₂ δ M N V η hδ hN hη hst ρ hread hreg hz
  rw [k4] at hst hread
  rw [k5] at hc
  obtain ⟨t₀, e, z, lam, ν₀, ν₁, m1, -, m3, m4, m5, -, -, -, -, -, m6⟩ := key c.functions Q hQ c.trig c.rule hO c.solver x.1 x.2 hR k1 k2 hc hpos y hy
    t₁ t₂ ht₁ ht₂ δ M N V η hδ hN hη hst ρ hread hreg hz s' k3
  exact ⟨t₀, e, z, lam, ν₀, ν₁, m1, m3, m4, m5, m6⟩

/-- The same with autoscaling, the default, for a dimensionally consistent problem, with the tolerance times the largest of the
sizes of the units of the boundary conditions.

Missing from the full property: what is missing from `C81_call_partial` and `C77_autoscaled_partial`. -/
theorem C81_solve_autoscaled_partial {c : Config} (hL : LuSound c.sympy)
    (hS : c.opts.controlMethod = .algebraic → SolveSound c.sympy)
    (hm : c.opts.momentumShift = true) (hR : c.solver.Ok) (hO : c.trig.sin = Real.sin) {un : Units} (hun : c.units = some un)
    {w : Solve.World Prob Bvp (Sol ℝ)} {a : Solve.Args Prob Bvp (Sol ℝ)} {p : Prob} (hp : Stated p) (hH : p.hamiltonian = none)
    (ha : a.ocp = some p) (hb : a.bvp = none) (hmeth : a.method.toLower ∈ ["indirect", "traditional", "brysonho", "diffyg"])
    (hd : c.opts.method = if a.method.toLower = "diffyg" then .diffyg else .traditional)
    (hfit : ∀ b s, Handed (world c w) a p b s → Fit c.solver b.prob s) {out : List (List (Sol ℝ))}
    (h : (Solve.solve (world c w) a).1 = .ok out) :
    ∃ b s q B calls, Handed (world c w) a p b s ∧ indirect c.sympy c.opts p = .ok b.prob ∧ primal c.sympy p = .ok q ∧
      Barriers B ∧ Warm s calls.flatten ∧
      ∀ Γ T T', Dimensional c.functions Γ c.sympy c.opts p b.prob T T' →
        (∀ l ∈ calls, ∀ x ∈ l, WellScaled c.functions Γ b.prob un x.1) →
      List.Forall₂ (List.Forall₂ fun (x : Sol ℝ × Sol ℝ) s' =>
        solvePass c.solver c.functions b.prob (some un) x.1 = .ok (some x.2) ∧
        invIndirect c.sympy c.trig c.rule (real c.functions) c.opts p x.2 = .ok s' ∧ s'.const = x.1.const ∧
        s'.converged = x.2.converged ∧
        ∀ φ D, Sizes c.functions Γ φ → Factored c.functions Γ φ b.prob un x.1 → Largest c.functions φ T' D →
        (s'.converged = true → (∀ d ∈ x.2.dyn, 0 < d) → ∀ Q, Completes c.functions p Q →
          ∀ y, x.2.y = .rows b.prob.states.length (x.2.t.map y) → ∀ t₁ t₂ ε, t₁ = x.1.t.getD 0 0 → t₂ = lastT x.1.t →
            ε = c.solver.tol * D →
          ∀ δ M N V η, 0 ≤ δ → 0 ≤ N → η = (if c.opts.controlMethod = .algebraic then 0 else ε + δ * N * (t₂ - t₁)) →
            Strays c.functions b.prob δ t₁ t₂ y x.2.dyn s'.const →
          ∀ ρ, Reads c.functions b.prob t₁ t₂ y x.2.dyn x.2.nondyn s'.const ρ → Regular c.sympy c.functions q b.prob t₁ t₂ ρ →
            Sized c.functions q M N V t₁ t₂ ρ →
          ∃ t₀ e z lam ν₀ ν₁, 0 < e ∧
            DefectExtremal (userOcp c.functions Q B p) ε η (δ / e) ((δ * M + η * V) * (t₂ - t₁)) t₀
              (t₀ + e * (t₂ - t₁)) z lam ν₀ ν₁ ∧
            s'.t = x.2.t.map (fun τ => t₀ + e * (τ - t₁)) ∧ Returned Q p z lam s' ∧
            Drawn ρ t₁ t₀ e z lam ν₀ ν₁)) calls out := by
  obtain ⟨b, s, q, B₀, calls, h1, h2, h3, -, h6, -, h7, h8⟩ := C77_autoscaled_partial hL hS hm hR hO hun hp hH ha hb hmeth hd hfit h
  have hd' : c.opts.method ≠ .other := by
    rw [hd]
    split <;> decide
  obtain ⟨q', B, hq, hB, key⟩ := C81_autoscaled_partial hL hp hH hm hd' hS h2
  rw [h3] at hq
  cases hq
  refine ⟨b, s, q, B, calls, h1, h2, h3, hB, h6, ?_⟩
  intro Γ T T' hdim hgood
  obtain ⟨-, h9⟩ := h8 Γ T T' hdim hgood
  refine forall₂_zip h7 h9 fun l l' hll hll' => forall₂_zip hll hll' fun x s' hx hx' => ?_
  obtain ⟨k2, k3, k4, k5⟩ := hx
  obtain ⟨k1, k6, -⟩ := hx'
  refine ⟨k2, k3, k6, k5, ?_⟩
  intro φ D hφ hF hD hc hpos Q hQ y hy t₁ t₂ ε ht₁ ht₂ hε δ M N V η hδ hN hη hst ρ hread hreg hz
  rw [k4] at hst hread
  rw [k5] at hc
  obtain ⟨t₀, e, z, lam, ν₀, ν₁, m1, -, m3, m4, m5, -, -, -, -, -, m6⟩ := key c.functions Q hQ c.trig c.rule hO Γ φ T T' hφ hdim D hD c.solver un x.1 x.2
    hR k1 hF k2 hc hpos y hy t₁ t₂ ε ht₁ ht₂ hε δ M N V η hδ hN hη hst ρ hread hreg hz s' k3
  exact ⟨t₀, e, z, lam, ν₀, ν₁, m1, m3, m4, m5, m6⟩

/-! ### A concrete case -/

/-- The guess: three nodes of the curve `bent`. -/
noncomputable def bentGuess : Sol ℝ := { exSol with y := .rows 4 [bentRow 0, bentRow (1 / 2), bentRow 1], converged := false }

/-- What the collocation solver `halver` makes of it. -/
noncomputable def bentSol : Sol ℝ :=
  { bentGuess with
    q := .rows 0 [[], [], []], dual := .rows 4 [[0, 0, 0, 0], [0, 0, 0, 0], [0, 0, 0, 0]], converged := true }

theorem bentGuess_ok : (Solver.collocation halver).Starts 4 bentGuess where
  times := by simp [bentGuess, exSol, exGrid]; norm_num
  two := by simp [bentGuess, exSol, exGrid]
  y := ⟨_, rfl, rfl, by simp [bentRow]⟩
  q := .inl ⟨rfl, rfl⟩
  u := .inl rfl

theorem bentRates (U : Name → Nat → ℝ → ℝ) {t : ℝ} (ht : t ∈ Set.Icc (0 : ℝ) 1) :
    derivFunc (real U) exP' (bentRow t) [1] [0] = .ok [1, 1, 0, 0] := by
  obtain ⟨v, hv, -⟩ := (bentNum U).rates t ht
  rw [hv, atPoint_val (bentRead U) ht hv, exP'_states, exh]
  simp [eval, diff, bent, exCurve]

theorem bentColloc (U : Name → Nat → ℝ → ℝ) : solveSol (.collocation halver) U exP' bentGuess = .ok (some bentSol) := by
  obtain ⟨b, hb, hle⟩ : ∃ b, bcFn U exP' [bentRow 0, bentRow 1, [1], [2, 0, -2], [0]] = .ok b ∧ ∀ x ∈ b, |x| ≤ 1 / 10 := by
    obtain ⟨b, hb, hle⟩ := (bentNum U).boundary
    exact ⟨b, (bcFn_five exP'_rest.2.2.1 ..).trans hb, fun x hx => (hle x hx).trans (by norm_num)⟩
  have hquad : quadFn U exP' = none := by rw [quadFn, quadFunc, exP'_rest.2.2.1]; rfl
  let A : Beluga.Bvp.Alg ℝ := { collocAlg halver U exP' with quad := some Beluga.Bvp.returnNil }
  let d : Beluga.Bvp.Dims := ⟨4, 0, 1, 3⟩
  let prob : Beluga.Bvp.Stacked ℝ := ⟨Beluga.Bvp.stackFun A d [0], Beluga.Bvp.stackBc A d [0], none, none, exGrid,
    [bentRow 0, bentRow (1 / 2), bentRow 1], [1, 2, 0, -2]⟩
  let ans : Beluga.Bvp.Answer ℝ := ⟨exGrid, [bentRow 0, bentRow (1 / 2), bentRow 1], some [1, 2, 0, -2], true⟩
  have hans : halve (1 / 10) prob = .ok ans := by
    have hf : prob.fn [bentRow 0, bentRow (1 / 2), bentRow 1] (some [1, 2, 0, -2]) =
        .ok [[1, 1, 0, 0], [1, 1, 0, 0], [1, 1, 0, 0]] := by
      have hd : ∀ τ ∈ Set.Icc (0 : ℝ) 1, eomFn U exP' [bentRow τ, [1], [0]] = .ok [1, 1, 0, 0] := fun τ hτ => bentRates U hτ
      have h1 := hd 0 (by norm_num)
      have h2 := hd (1 / 2) (by norm_num)
      have h3 := hd 1 (by norm_num)
      change (([bentRow 0, bentRow (1 / 2), bentRow 1].mapM fun yi => eomFn U exP' [yi.take 4, [1], [0]]) >>= Beluga.Bvp.vstack) = _
      rw [Num.mapM_ok (g := fun _ => [1, 1, 0, 0])]
      · rw [Num.ok_bind]
        simp [Beluga.Bvp.vstack]
      · intro r hr
        simp only [List.mem_cons, List.not_mem_nil, or_false] at hr
        rcases hr with rfl | rfl | rfl
        · exact h1
        · exact h2
        · exact h3
    have hp : (if prob.p = [] then none else some prob.p) = some [1, 2, 0, -2] := rfl
    rw [halve]
    rw [hp, show midway prob.x prob.y = (exGrid, [bentRow 0, bentRow (1 / 2), bentRow 1]) from rfl, if_neg (by simp [prob, exGrid])]
    dsimp only
    rw [hf, Num.ok_bind]
    refine (congrArg (· >>= _) (hb : prob.bc (bentRow 0) (bentRow 1) (some [1, 2, 0, -2]) = _)).trans ?_
    change Except.ok _ = Except.ok _
    rw [decide_eq_true hle]
  have hsolve : Beluga.Bvp.solve halver.bvp (collocAlg halver U exP') [toBvp bentGuess] 0 = (A, [toBvp bentGuess, toBvp bentSol], .ok 1) := by
    have h1 : Beluga.Bvp.dims (collocAlg halver U exP') (toBvp bentGuess) = (A, .ok d) := rfl
    have h2 : Beluga.Bvp.stacked A d (toBvp bentGuess) = .ok prob := rfl
    have h3 : halver.bvp prob = .ok ans := hans
    unfold Beluga.Bvp.solve
    simp only [List.getElem?_cons_zero, h1, h2, h3]
    rfl
  change (match (Beluga.Bvp.solve halver.bvp (collocAlg halver U exP') [toBvp bentGuess] 0).2.2 with
    | .error e => .error e
    | .ok ref => match (Beluga.Bvp.solve halver.bvp (collocAlg halver U exP') [toBvp bentGuess] 0).2.1[ref]? with
      | some x => .ok (some (fromBvp bentGuess x))
      | none => .error .attributeError : Py (Option (Sol ℝ))) = _
  rw [hsolve]
  rfl

/-- The collocation solver reports convergence for nodes that no solution of the differential equations passes through; the user gets
samples of an extremal up to 1/100 in the differential equations, up to 1/10 in the boundary conditions and up to 1/5 + 1/50 in the
condition for the initial time. -/
example (U : Name → Nat → ℝ → ℝ) (O : TrigOps ℝ) (hO : O.sin = Real.sin) :
    solveSol (.collocation halver) U exP' bentGuess = .ok (some bentSol) ∧
    ∃ s', invIndirect exS O trapezoids (real U) exO exP bentSol = .ok s' ∧ s'.converged = true ∧
      ∃ B x lam ν₀ ν₁, DefectExtremal (userOcp U exQ B exP) (1 / 10) 0 (1 / 100) (1 / 50) 0 1 x lam ν₀ ν₁ ∧ Returned exQ exP x lam s' := by
  obtain ⟨s', hs'⟩ : ∃ s', invIndirect exS O trapezoids (real U) exO exP bentSol = .ok s' := by
    refine ok_of ?_
    rfl
  have hf : s'.t = [0, 1 / 2, 1] ∧ s'.converged = true := by
    have hs' := hs'
    cases hs'
    exact ⟨rfl, rfl⟩
  obtain ⟨q, B, hq, -, key⟩ := C81_call_partial (luSound_cramer exS rfl) exP_stated (o := exO) rfl (by decide)
    (fun _ => exS_sound) exP'_ok
  rw [exq_ok] at hq
  cases hq
  obtain ⟨t₀, c, x, lam, ν₀, ν₁, hc, -, hext, ht, hret, -⟩ := key U exQ (exQ_completes U) O trapezoids hO (.collocation halver) bentGuess
    bentSol halver_ok (by rw [show exP'.states.length = 4 by decide +kernel]; exact bentGuess_ok) (bentColloc U) rfl
    (by simp [bentSol, bentGuess, exSol]) bentRow (by rw [show exP'.states.length = 4 by decide +kernel]; rfl) 0 1 rfl rfl (1 / 100) 2 3 0 0
    (by norm_num) (by norm_num) (by simp [exO]) (bentNum U).rates bent (bentRead U) (bentRegular U) (bentSized U) s' hs'
  have ht0 : t₀ = 0 ∧ c = 1 := by
    rw [hf.1, show bentSol.t = [0, 1 / 2, 1] from rfl] at ht
    simp at ht
    exact ⟨ht.1.symm, by linarith [ht.1, ht.2.2]⟩
  obtain ⟨rfl, rfl⟩ := ht0
  refine ⟨bentColloc U, s', hs', hf.2, B, x, lam, ν₀, ν₁, ?_, hret⟩
  have e : ((1 / 100 : ℝ) * 2 + 0 * 0) * (1 - 0) = 1 / 50 := by norm_num
  rw [e] at hext
  simpa [halver, Solver.tol] using hext

end Beluga.E2E
