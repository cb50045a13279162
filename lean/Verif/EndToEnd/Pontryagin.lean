import Verif.EndToEnd.Props
import Verif.Symbolic.Rational

/-! # Pontryagin's minimum principle along returned solutions (C76) -/

namespace Beluga.E2E

open Beluga.Sym Beluga.Sym.Expr Beluga.Num Beluga.Map Beluga.Opt Beluga.Rep

/-! ### Specification -/

/-- With the other symbols as in `σ₀`, the Hamiltonian takes its least value over all controls at a point where it has
partial derivatives, and sympy's `solve` finds this point. -/
def FindsMinimum (S : Sympy) (U : Name → Nat → ℝ → ℝ) (q : Prob) (O : Ocp) (lam : Name → ℝ) (σ₀ : Env) : Prop :=
  ∃ σ, SameBut O.controls σ₀ σ ∧ Minimal O lam σ ∧ (∀ u ∈ O.controls, ∃ d, HasPartial (O.ham lam) u d σ) ∧
    SmoothRates q U σ ∧ SolveFinds S U (q.controls.map fun u => (hexpr q).diff u) q.controls σ

/-! ### Property -/

/-- With the algebraic control law the returned tables are samples of an extremal that satisfies Pontryagin's minimum
principle: at every time at which the Hamiltonian has a minimum over the controls that `solve` finds, the returned controls
minimise the Hamiltonian, over all controls.

Missing from the full property: the differential control law (`C76_violated`); what is missing from `C73_returned_partial`. -/
theorem C76_minimum_partial {S : Sympy} (hL : LuSound S) {o : Opts} {p p' : Prob} (hp : Stated p)
    (hm : o.momentumShift = true) (hd : o.method ≠ .other) (hc : o.controlMethod = .algebraic) (hS : SolveSound S)
    (h : indirect S o p = .ok p') :
    ∃ q B, primal S p = .ok q ∧ Barriers B ∧
      ∀ U Q, Completes U p Q → ∀ (O : TrigOps ℝ) rule, O.sin = Real.sin →
      ∀ a b y pr pc k ρ, a ≤ b → NumSol U p' a b y pr pc k → Reads U p' a b y pr pc k ρ → Regular S U q p' a b ρ →
        (∀ x ∈ pr, 0 < x) →
      ∀ s s' : Sol ℝ, s.t ≠ [] → (∀ τ ∈ s.t, τ ∈ Set.Icc a b) → s.y = .rows p'.states.length (s.t.map y) → s.dyn = pr →
        s.const = k → invIndirect S O rule (real U) o p s = .ok s' →
      ∃ t₀ c x lam ν₀ ν₁, 0 < c ∧ Extremal (userOcp U Q B p) t₀ (t₀ + c * (b - a)) x lam ν₀ ν₁ ∧
        s'.t = s.t.map (fun τ => t₀ + c * (τ - a)) ∧ Returned Q p x lam s' ∧
        ∀ t ∈ Set.Icc t₀ (t₀ + c * (b - a)), FindsMinimum S U q (userOcp U Q B p) (lam t) (x t) →
          Minimal (userOcp U Q B p) (lam t) (x t) := by
  obtain ⟨q, B, h1, h2, h3⟩ := C73_returned_partial hL hp hm hd (fun _ => hS) h
  refine ⟨q, B, h1, h2, ?_⟩
  intro U Q hQ O rule hO a b y pr pc k ρ hab hnum hread hreg hpr s s' hne hgrid hy hdyn hconst hinv
  obtain ⟨t₀, c, x, lam, ν₀, ν₁, g1, g2, g3, g4, -, -, -, g9, -⟩ := h3 U Q hQ O rule hO a b y pr pc k ρ hab hnum hread hreg hpr
    s s' hne hgrid hy hdyn hconst hinv
  refine ⟨t₀, c, x, lam, ν₀, ν₁, g1, g2, g3, g4, ?_⟩
  rintro t ht ⟨σ, e1, e2, e3, e4, e5⟩
  exact (g9 hc).minimal ht e1 e2 e3 e4 e5

/-! ### A concrete case

Minimise `∫ (u² - 1)²` over the motion `x' = 1` from `x = 0`, `t = 0` to `x = 1`.  The Hamiltonian is stationary at `u = 0`
(a maximum), `u = 1` and `u = -1`. -/

def wP : Prob := {
  ind := "t"
  states := [⟨"x", 1⟩]
  controls := ["u"]
  costPath := (sym "u" * sym "u" + num (-1)) * (sym "u" * sym "u" + num (-1))
  initial := [{ expr := sym "x" }, { expr := sym "t" }]
  terminal := [{ expr := sym "x" - 1 }] }

/-- A solver that knows one equation. -/
def wS : Sympy where
  solve eqs syms :=
    if eqs = [hamiltonianOf ((sym "u" * sym "u" + num (-1)) * (sym "u" * sym "u" + num (-1))) [⟨"x", 1⟩, ⟨"t", 1⟩]].map (Expr.diff "u") ∧
      syms = ["u"] then [[("u", 0)], [("u", 1)], [("u", num (-1))]] else []
  lu := cramerLu
  integrate _ _ := 0

/-- The boundary value problem for a control method. -/
def wP' (m : ControlMethod) : Prob := match indirect wS { controlMethod := m } wP with
  | .ok p => p
  | .error _ => {}

theorem wP'_ok {m : ControlMethod} (hm : m = .algebraic ∨ m = .differential) : indirect wS { controlMethod := m } wP = .ok (wP' m) := by
  have : (match indirect wS { controlMethod := m } wP with | .ok _ => true | .error _ => false) = true := by
    rcases hm with rfl | rfl <;> decide +kernel
  rw [wP']
  cases h : indirect wS { controlMethod := m } wP with
  | ok p => rfl
  | error e => rw [h] at this; cases this

theorem wP_stated : Stated wP where
  costates := rfl
  coparameters := rfl
  parameters := rfl
  quads := rfl
  law := rfl
  acyclic := ⟨fun _ => 0, by decide⟩
  reg := ⟨rfl, by decide, by decide, by decide, by simp [wP], by decide, by decide⟩
  inside := by decide
  ends := by decide
  bounds := by simp [wP]
  flat := by simp [wP]
  names := by decide
  trig := by decide +kernel
  plain := by decide +kernel
  free := by decide +kernel
  ind := by decide +kernel

theorem wS_sound : SolveSound wS := by
  intro U eqs syms sol hs σ hσ e he
  simp only [wS] at hs
  split at hs
  · next hc =>
    obtain ⟨rfl, rfl⟩ := hc
    simp only [List.map_cons, List.map_nil, List.mem_singleton] at he
    subst he
    obtain ⟨e', h1, -, h3⟩ := hσ "u" (by simp)
    simp only [List.mem_cons, List.not_mem_nil, or_false] at hs
    rcases hs with rfl | rfl | rfl <;> cases h1 <;> simp [hamiltonianOf, diff, eval, lamName] at h3 ⊢ <;> simp [h3]
  · cases hs

def wq : Prob := match primal wS wP with
  | .ok p => p
  | .error _ => {}

theorem wq_ok : primal wS wP = .ok wq := by
  have : (match primal wS wP with | .ok _ => true | .error _ => false) = true := by decide +kernel
  rw [wq]
  cases h : primal wS wP with
  | ok p => rfl
  | error e => rw [h] at this; cases this

theorem wq_parts : wq.states = [⟨"x", 1⟩, ⟨"t", 1⟩] ∧ wq.costPath = (sym "u" * sym "u" + num (-1)) * (sym "u" * sym "u" + num (-1)) ∧
    wq.costInitial = 0 ∧ wq.costTerminal = 0 ∧ wq.initial = [{ expr := sym "x" }, { expr := sym "t" }] ∧
    wq.terminal = [{ expr := sym "x" - 1 }] ∧ wq.controls = ["u"] := by decide +kernel

theorem wh : hexpr wq = (sym "u" * sym "u" + num (-1)) * (sym "u" * sym "u" + num (-1)) + sym "_lam_x" * 1 + sym "_lam_t" * 1 := by decide +kernel
theorem wphi0 : phi0 wq = 0 + sym "_nu_0_0" * sym "x" + sym "_nu_0_1" * sym "t" := by decide +kernel
theorem wphif : phif wq = 0 + sym "_nu_f_0" * (sym "x" - 1) := by decide +kernel

/-- The values that do not change along the motion: the control `u`, the costate `l` of `x`, the multipliers. -/
def wQ (u l : ℚ) (s : Name) : ℚ :=
  if s = "_delta_t" then 1 else if s = "u" then u else if s = "_lam_x" ∨ s = "_nu_f_0" then l
  else if s = "_nu_0_0" then -l else 0

/-- The motion with constant control. -/
def wCurve (u l : ℚ) (τ : ℝ) (s : Name) : ℝ := if s = "x" ∨ s = "t" ∨ s = "_tau" then τ else (wQ u l s : ℝ)

/-- The expression has a value along the whole motion, which is `v`. -/
def wVal (u l v : ℚ) (e : Expr) : Bool :=
  okQ (wQ u l) e && decide (eval ratI (wQ u l) e = v) && e.free.all fun s => s ≠ "x" ∧ s ≠ "t" ∧ s ≠ "_tau"

theorem wVal_sound {u l v : ℚ} {e : Expr} (h : wVal u l v e = true) (U : Name → Nat → ℝ → ℝ) (τ : ℝ) :
    eval (real U) (wCurve u l τ) e = v ∧ Defined (real U) (wCurve u l τ) e ∧ Smooth U (wCurve u l τ) e := by
  simp only [wVal, Bool.and_eq_true, List.all_eq_true, decide_eq_true_eq] at h
  have := okQ_sound (U := U) (ρ := wCurve u l τ) h.1.1 fun s hs => by
    obtain ⟨h1, h2, h3⟩ := h.2 s hs
    simp [wCurve, h1, h2, h3]
  rwa [h.1.2] at this

/-- The expression has the value `v` where `x`, `t` and the parameter of the curve are `τ`. -/
def wEnd (u l τ v : ℚ) (e : Expr) : Bool :=
  okQ (fun s => if s = "x" ∨ s = "t" ∨ s = "_tau" then τ else wQ u l s) e &&
    decide (eval ratI (fun s => if s = "x" ∨ s = "t" ∨ s = "_tau" then τ else wQ u l s) e = v)

theorem wEnd_sound {u l τ v : ℚ} {e : Expr} (h : wEnd u l τ v e = true) (U : Name → Nat → ℝ → ℝ) :
    eval (real U) (wCurve u l τ) e = v ∧ Defined (real U) (wCurve u l τ) e ∧ Smooth U (wCurve u l τ) e := by
  simp only [wEnd, Bool.and_eq_true, decide_eq_true_eq] at h
  have := okQ_sound (U := U) (ρ := wCurve u l τ) h.1 fun s _ => by
    dsimp only [wCurve]
    split <;> rfl
  rwa [h.2] at this

theorem wCurve_const (u l : ℚ) (s : Name) (h : s ≠ "x") (h2 : s ≠ "t") (h3 : s ≠ "_tau") : Moves 0 1 (wCurve u l) 0 s := by
  intro t _
  have : (fun τ => wCurve u l τ s) = fun _ => wCurve u l 0 s := by
    funext τ
    simp [wCurve, h, h2, h3]
  rw [this]
  exact hasDerivAt_const _ _

theorem wCurve_id (u l : ℚ) (s : Name) (h : s = "x" ∨ s = "t" ∨ s = "_tau") : Moves 0 1 (wCurve u l) 1 s := by
  intro t _
  have : (fun τ => wCurve u l τ s) = fun τ => τ := by
    funext τ
    simp [wCurve, h]
  rw [this]
  exact hasDerivAt_id _

/-- What has to be computed for the motion with control `u` and costate `l` to solve the boundary value problem. -/
def wChecks (m : ControlMethod) (u l : ℚ) : Bool :=
  ((wP' m).states.all fun d => wVal u l (if d.name = "x" ∨ d.name = "t" then 1 else 0) d.eom && decide (d.name ≠ "_tau")) &&
  ((wP' m).initial.all fun c => wEnd u l 0 0 c.expr) && ((wP' m).terminal.all fun c => wEnd u l 1 0 c.expr) &&
  ((wP' m).controlLaw.all fun opt => opt.all fun e => wVal u l (eval ratI (wQ u l) e) e) &&
  decide ("x" ∈ sts (wP' m) ∧ "t" ∈ sts (wP' m) ∧ (wP' m).ind = "_tau" ∧ (wP' m).quads = []) &&
  decide ((wP' m).controls = [] ∨ (wP' m).controls = ["u"] ∧ ∃ opt ∈ (wP' m).controlLaw, opt.map (eval ratI (wQ u l)) = [u])

theorem wSolves {m : ControlMethod} {u l : ℚ} (h : wChecks m u l = true) (U : Name → Nat → ℝ → ℝ) :
    Solves U (wP' m) 0 1 (wCurve u l) := by
  simp only [wChecks, Bool.and_eq_true, List.all_eq_true, decide_eq_true_eq] at h
  obtain ⟨⟨⟨⟨⟨h1, h2⟩, h3⟩, h4⟩, h5⟩, h6⟩ := h
  refine ⟨?_, ?_, ?_, ?_, ?_⟩
  · intro t ht d hd
    obtain ⟨e1, e2⟩ := h1 d hd
    rw [(wVal_sound e1 U t).1]
    by_cases hn : d.name = "x" ∨ d.name = "t"
    · rw [if_pos hn]
      simpa using wCurve_id u l d.name (hn.imp id Or.inl) t ht
    · rw [if_neg hn]
      rw [not_or] at hn
      simpa using wCurve_const u l d.name hn.1 hn.2 e2 t ht
  · intro s n1 n2 n3 n4
    rw [h5.2.2.1] at n4
    exact wCurve_const u l s (fun e => n1 (e ▸ h5.1)) (fun e => n1 (e ▸ h5.2.1)) n4
  · intro hne t _
    rcases h6 with h6 | ⟨h6, opt, ho, h7⟩
    · exact absurd h6 hne
    · refine ⟨opt, ho, ?_⟩
      rw [h6]
      match opt, ho, h7 with
      | [e], ho, h7 =>
        refine .cons ?_ .nil
        rw [(wVal_sound (h4 _ ho e (by simp)) U t).1]
        simp only [List.map_cons, List.map_nil, List.cons.injEq, and_true] at h7
        rw [h7]
        simp [wCurve, wQ]
      | [], _, h7 => cases h7
      | _ :: _ :: _, _, h7 => simp at h7
  · intro c hc
    have := (wEnd_sound (h2 c hc) U).1
    simpa using this
  · intro c hc
    have := (wEnd_sound (h3 c hc) U).1
    simpa using this

/-- The upper solution, with the algebraic control law. -/
theorem w_top (U : Name → Nat → ℝ → ℝ) : Solves U (wP' .algebraic) 0 1 (wCurve 1 0) := wSolves (by decide +kernel) U

/-- The maximum of the Hamiltonian, with the differential control law. -/
theorem w_mid (U : Name → Nat → ℝ → ℝ) : Solves U (wP' .differential) 0 1 (wCurve 0 (-1)) := wSolves (by decide +kernel) U

/-- The value that `wEnd` computes. -/
def wAt (u l τ : ℚ) (e : Expr) : ℚ := eval ratI (fun s => if s = "x" ∨ s = "t" ∨ s = "_tau" then τ else wQ u l s) e

/-- What has to be computed for the motion to be regular. -/
def wSmooth (m : ControlMethod) (u l : ℚ) : Bool :=
  ((wq.costPath :: wq.states.map Dyn.eom ++ wq.controls.map fun v => (hexpr wq).diff v).all fun e =>
    wVal u l (eval ratI (wQ u l) e) e) &&
  ((wq.costInitial :: wq.costTerminal :: (wq.initial ++ wq.terminal).map Con.expr).all fun e =>
    wEnd u l 0 (wAt u l 0 e) e && wEnd u l 1 (wAt u l 1 e) e) && ((wP' m).controls.all fun v => decide (v = "u")) && (wP' m).omega.isNone

theorem wRegular {m : ControlMethod} {u l : ℚ} (h : wChecks m u l = true) (h' : wSmooth m u l = true) (U : Name → Nat → ℝ → ℝ) :
    Regular wS U wq (wP' m) 0 1 (wCurve u l) := by
  simp only [wChecks, Bool.and_eq_true, List.all_eq_true, decide_eq_true_eq] at h
  obtain ⟨⟨⟨⟨⟨h1, h2⟩, h3⟩, h4⟩, h5⟩, h6⟩ := h
  simp only [wSmooth, Bool.and_eq_true, List.all_eq_true, decide_eq_true_eq] at h'
  obtain ⟨⟨⟨g1, g2⟩, g3⟩, g4⟩ := h'
  have e0 : ∀ e ∈ wq.costInitial :: wq.costTerminal :: (wq.initial ++ wq.terminal).map Con.expr,
      Smooth U (wCurve u l 0) e ∧ Smooth U (wCurve u l 1) e := by
    intro e he
    obtain ⟨a1, a2⟩ := g2 e he
    have b1 := (wEnd_sound a1 U).2.2
    have b2 := (wEnd_sound a2 U).2.2
    simp only [Rat.cast_zero, Rat.cast_one] at b1 b2
    exact ⟨b1, b2⟩
  refine ⟨?_, ⟨(e0 _ (by simp)).1, ?_⟩, ⟨(e0 _ (by simp)).2, ?_⟩, ?_, ?_, ?_, ?_, ?_⟩
  · intro t _
    refine ⟨(wVal_sound (g1 _ (by simp)) U t).2.2, fun d hd => (wVal_sound (g1 _ ?_) U t).2.2⟩
    exact List.mem_append_left _ (List.mem_cons_of_mem _ (List.mem_map_of_mem hd))
  · intro c hc
    exact (e0 _ (List.mem_cons_of_mem _ (List.mem_cons_of_mem _ (List.mem_map_of_mem (List.mem_append_left _ hc))))).1
  · intro c hc
    exact (e0 _ (List.mem_cons_of_mem _ (List.mem_cons_of_mem _ (List.mem_map_of_mem (List.mem_append_right _ hc))))).2
  · intro t _ v hv
    exact (wVal_sound (g1 _ (List.mem_append_right _ (List.mem_map_of_mem (f := fun v => (hexpr wq).diff v) hv))) U t).2.2
  · intro t _ d hd
    exact (wVal_sound (h1 d hd).1 U t).2.1
  · intro t _ opt ho e he
    exact (wVal_sound (h4 opt ho e he) U t).2.1
  · intro t ht v hv
    rw [g3 v hv]
    exact (wCurve_const u l "u" (by decide) (by decide) (by decide) t ht).differentiableAt
  · intro om ho
    rw [ho] at g4
    cases g4

theorem w_completes (U : Name → Nat → ℝ → ℝ) : Completes U wP id where
  off := fun _ _ _ => rfl
  quantities := by simp [wP]
  switches := by simp [wP]
  trig := by simp [TrigEnv, wP]

theorem w_ham (U : Name → Nat → ℝ → ℝ) (B : ℝ → ℝ → ℝ → ℝ → ℝ) (lam : Name → ℝ) (σ : Env) :
    (userOcp U id B wP).ham lam σ = (σ "u" * σ "u" - 1) ^ 2 + lam "x" := by
  simp [Ocp.ham, userOcp, wP, eval, penalties]
  ring

/-! ### The algebraic control law

Samples of the solution with the control 1. -/

noncomputable def wSol : Sol ℝ where
  t := exGrid
  dualT := []
  y := .rows 4 (exGrid.map fun τ => [τ, τ, 0, 0])
  dual := .empty
  q := .empty
  u := .empty
  dualU := .empty
  dyn := [1]
  nondyn := [0, 0, 0]
  const := []
  converged := true
  cost := none

def wO : Opts := { controlMethod := .algebraic }

def wGet : Py Prob → Prob
  | .ok p => p
  | .error _ => {}

def wIs : Py Prob → Bool
  | .ok _ => true
  | .error _ => false

theorem wGet_ok {x : Py Prob} (h : wIs x = true) : x = .ok (wGet x) := by
  cases x with
  | ok p => rfl
  | error e => cases h

def w0 : Prob := wGet (preprocess wP)
def w1 : Prob := wGet (Step.momentumShift.run wS w0)
def w2 : Prob := wGet ((Step.dualize .traditional).run wS w1)
def w3 : Prob := wGet (Step.algebraic.run wS w2)

theorem w0_ok : preprocess wP = .ok w0 := wGet_ok (by decide +kernel)
theorem w1_ok : Step.momentumShift.run wS w0 = .ok w1 := wGet_ok (by decide +kernel)
theorem w2_ok : (Step.dualize .traditional).run wS w1 = .ok w2 := wGet_ok (by decide +kernel)
theorem w3_ok : Step.algebraic.run wS w2 = .ok w3 := wGet_ok (by decide +kernel)

theorem w3_parts : w3.controlLaw = [[0], [1], [num (-1)]] ∧ w3.hamiltonian = some (hexpr wq) ∧ w3.ind = "_t" ∧ sts w3 = ["x", "t"] ∧
    w3.costates.map Dyn.name = ["_lam_x", "_lam_t"] ∧ w3.parameters = [] ∧ w3.constants = [] ∧ w3.controls = ["u"] := by
  decide +kernel

theorem w_mapperU (U : Name → Nat → ℝ → ℝ) (t y0 y1 l0 l1 : ℝ) : mapperU (real U) w3 t [y0, y1] [l0, l1] [] [] = .ok [1] := by
  obtain ⟨e1, e2, e3, e4, e5, e6, e7, e8⟩ := w3_parts
  rw [mapperU, e1, e2, e3, e4, e5, e6, e7, e8, wh]
  have : ∀ u : ℝ, lambdify (real U) [["_t"], ["x", "t"], ["_lam_x", "_lam_t"], ["u"], [], []]
      ((sym "u" * sym "u" + num (-1)) * (sym "u" * sym "u" + num (-1)) + sym "_lam_x" * 1 + sym "_lam_t" * 1) [[t], [y0, y1], [l0, l1], [u], [], []] =
      .ok ((u * u + -1) * (u * u + -1) + l0 + l1) := by
    intro u
    have h : lambdify (real U) [["_t"], ["x", "t"], ["_lam_x", "_lam_t"], ["u"], [], []]
      ((sym "u" * sym "u" + num (-1)) * (sym "u" * sym "u" + num (-1)) + sym "_lam_x" * 1 + sym "_lam_t" * 1) [[t], [y0, y1], [l0, l1], [u], [], []] =
      .ok ((u * u + ((-1 : ℚ) : ℝ)) * (u * u + ((-1 : ℚ) : ℝ)) + l0 * ((1 : ℚ) : ℝ) + l1 * ((1 : ℚ) : ℝ)) := rfl
    rw [h]
    norm_num
  have hus : lambdifyM (real U) [["_t"], ["x", "t"], ["_lam_x", "_lam_t"], [], []] [[0], [1], [num (-1)]] [[t], [y0, y1], [l0, l1], [], []] =
      .ok [[((0 : ℚ) : ℝ)], [((1 : ℚ) : ℝ)], [((-1 : ℚ) : ℝ)]] := rfl
  simp only [hus, Num.ok_bind, List.mapM_cons, List.mapM_nil, this]
  simp [pure, Except.pure, bind, Except.bind, select, selectGo, ltNan]


theorem wTail (U : Name → Nat → ℝ → ℝ) (O : TrigOps ℝ) (rule : List ℝ → List ℝ → ℝ) :
    invSteps wS O rule (real U) [.normalizeTime, .squash] w3 wSol = .ok { wSol with
      t := exGrid.map (· * 1), y := .rows 2 (exGrid.map fun τ => [τ, τ]), dual := .rows 2 (exGrid.map fun _ => [0, 0]), dyn := [] } := by
  rfl

theorem invSteps_step {S : Sympy} {O : TrigOps ℝ} {rule : List ℝ → List ℝ → ℝ} {I : Interp ℝ} {step : Step} {steps : List Step}
    {p p1 : Prob} {s s1 s' : Sol ℝ} (h1 : step.run S p = .ok p1) (h2 : invSteps S O rule I steps p1 s = .ok s1)
    (h3 : invTags O rule I p p1 (newTags p p1) s1 = .ok s') : invSteps S O rule I (step :: steps) p s = .ok s' := by
  rw [invSteps, h1, Num.ok_bind, h2, Num.ok_bind, h3]

theorem wInv (U : Name → Nat → ℝ → ℝ) (O : TrigOps ℝ) (rule : List ℝ → List ℝ → ℝ) :
    ∃ s', invIndirect wS O rule (real U) wO wP wSol = .ok s' ∧ s'.t = [0, 1 / 2, 1] ∧ s'.y = .rows 1 [[0], [1 / 2], [1]] ∧
      s'.u = .rows 1 [[1], [1], [1]] := by
  have e : indirectSteps wO w0 = .ok [.momentumShift, .dualize .traditional, .algebraic, .normalizeTime, .squash] := by decide +kernel
  have hA := invSteps_step (s' := { wSol with
      t := exGrid.map (· * 1), y := .rows 2 (exGrid.map fun τ => [τ, τ]), dual := .rows 2 (exGrid.map fun _ => [0, 0]), dyn := [],
      u := .rows 1 [[1], [1], [1]] }) w3_ok (wTail U O rule) (by
    have : newTags w2 w3 = [.algebraic] := by decide +kernel
    rw [this]
    simp only [invTags, invTag, Num.ok_bind, exGrid, List.map_cons, List.map_nil, Arr.rowList, List.zip_cons_cons, List.zip_nil_left,
      List.mapM_cons, List.mapM_nil]
    simp only [wSol, w_mapperU, w3_parts]
    rfl)
  have hB : ∃ s', invSteps wS O rule (real U) [.momentumShift, .dualize .traditional, .algebraic, .normalizeTime, .squash] w0 wSol = .ok s' ∧
    s'.t = [0, 1 / 2, 1] ∧ s'.y = .rows 1 [[0], [1 / 2], [1]] ∧ s'.u = .rows 1 [[1], [1], [1]] := by
    refine ⟨_, invSteps_step w1_ok
      (invSteps_step w2_ok hA rfl) rfl, rfl, rfl, rfl⟩
  obtain ⟨s', h1, h2⟩ := hB
  refine ⟨s', ?_, h2⟩
  rw [invIndirect, w0_ok, Num.ok_bind, e, Num.ok_bind, h1]

theorem wP'_parts : (wP' .algebraic).controlLaw = [[0], [1], [num (-1)]] ∧ (wP' .algebraic).hamiltonian = some (hexpr wq) ∧
    sts (wP' .algebraic) = ["x", "t", "_lam_x", "_lam_t"] ∧ (wP' .algebraic).parameters = ["_delta_t"] ∧
    (wP' .algebraic).constants = [] ∧ (wP' .algebraic).controls = ["u"] ∧ (wP' .algebraic).quads = [] ∧
    (wP' .algebraic).constraintParams = ["_nu_0_0", "_nu_0_1", "_nu_f_0"] ∧ (wP' .algebraic).ind = "_tau" := by
  decide +kernel

theorem w_computeU (U : Name → Nat → ℝ → ℝ) (y0 y1 l0 l1 d : ℝ) :
    computeU (real U) (wP' .algebraic) [y0, y1, l0, l1] [d] [] = .ok (some [1]) := by
  obtain ⟨e1, e2, e3, e4, e5, e6, -⟩ := wP'_parts
  rw [computeU, e1, e2, e3, e4, e5, e6, wh]
  have : ∀ u : ℝ, lambdify (real U) [["x", "t", "_lam_x", "_lam_t"], ["u"], ["_delta_t"], []]
      ((sym "u" * sym "u" + num (-1)) * (sym "u" * sym "u" + num (-1)) + sym "_lam_x" * 1 + sym "_lam_t" * 1) [[y0, y1, l0, l1], [u], [d], []] =
      .ok ((u * u + -1) * (u * u + -1) + l0 + l1) := by
    intro u
    have h : lambdify (real U) [["x", "t", "_lam_x", "_lam_t"], ["u"], ["_delta_t"], []]
      ((sym "u" * sym "u" + num (-1)) * (sym "u" * sym "u" + num (-1)) + sym "_lam_x" * 1 + sym "_lam_t" * 1) [[y0, y1, l0, l1], [u], [d], []] =
      .ok ((u * u + ((-1 : ℚ) : ℝ)) * (u * u + ((-1 : ℚ) : ℝ)) + l0 * ((1 : ℚ) : ℝ) + l1 * ((1 : ℚ) : ℝ)) := rfl
    rw [h]
    norm_num
  have hus : lambdifyM (real U) [["x", "t", "_lam_x", "_lam_t"], ["_delta_t"], []] [[0], [1], [num (-1)]] [[y0, y1, l0, l1], [d], []] =
      .ok [[((0 : ℚ) : ℝ)], [((1 : ℚ) : ℝ)], [((-1 : ℚ) : ℝ)]] := rfl
  simp only [hus, Num.ok_bind, List.mapM_cons, List.mapM_nil, this]
  simp [pure, Except.pure, bind, Except.bind, select, selectGo, ltNan]

theorem wRead (U : Name → Nat → ℝ → ℝ) :
    Reads U (wP' .algebraic) 0 1 (fun τ => [τ, τ, 0, 0]) [1] [0, 0, 0] [] (wCurve 1 0) := by
  obtain ⟨e1, e2, e3, e4, e5, e6, e7, e8, e9⟩ := wP'_parts
  refine ⟨?_, ?_, ?_, ?_, ?_, ?_⟩
  · intro t
    rw [e3]
    simp [wCurve, wQ]
  · intro t _ u hu
    rw [w_computeU] at hu
    cases hu
    rw [e6]
    simp [wCurve, wQ]
  · intro t
    rw [e4]
    simp [wCurve, wQ]
  · intro t
    rw [e8]
    simp [wCurve, wQ]
  · intro t
    rw [e5]
    rfl
  · intro s n1 n2 n3 t t'
    rw [e3] at n1
    rw [e9] at n3
    simp only [List.mem_cons, not_or] at n1
    simp [wCurve, n1.1, n1.2.1, n3]

theorem wNum (U : Name → Nat → ℝ → ℝ) :
    NumSol U (wP' .algebraic) 0 1 (fun τ => [τ, τ, 0, 0]) [1] [0, 0, 0] [] := by
  refine numSol_of_solves (wRead U) (by norm_num) wP'_parts.2.2.2.2.2.2.1 (w_top U) ?_ ?_
  · intro t _
    rw [derivFunc, atPoint, w_computeU]
    refine ok_of ?_
    rfl
  · rw [bcFunc, bcEnd, bcEnd, w_computeU, w_computeU]
    refine ok_of ?_
    rfl

/-- From three samples the user gets the control 1, which minimises the Hamiltonian. -/
example (U : Name → Nat → ℝ → ℝ) (O : TrigOps ℝ) (hO : O.sin = Real.sin) :
    ∃ s', invIndirect wS O trapezoids (real U) wO wP wSol = .ok s' ∧ s'.t = [0, 1 / 2, 1] ∧
      s'.y = .rows 1 [[0], [1 / 2], [1]] ∧ s'.u = .rows 1 [[1], [1], [1]] ∧
      ∃ B x lam ν₀ ν₁, Extremal (userOcp U id B wP) 0 1 x lam ν₀ ν₁ ∧ Returned id wP x lam s' ∧
        ∀ t ∈ Set.Icc (0 : ℝ) 1, FindsMinimum wS U wq (userOcp U id B wP) (lam t) (x t) ∧
          Minimal (userOcp U id B wP) (lam t) (x t) := by
  obtain ⟨s', hs', f1, f2, f3⟩ := wInv U O trapezoids
  obtain ⟨q, B, hq, hB, h⟩ := C76_minimum_partial (luSound_cramer wS rfl) wP_stated (o := wO) rfl (by decide) rfl wS_sound
    (wP'_ok (Or.inl rfl))
  rw [wq_ok] at hq
  cases hq
  obtain ⟨t₀, c, x, lam, ν₀, ν₁, hc, hext, ht, hret, hmin⟩ := h U id (w_completes U) O trapezoids hO 0 1 _ _ _ _ _ (by norm_num)
    (wNum U) (wRead U) (wRegular (by decide +kernel) (by decide +kernel) U) (by simp) wSol s' (by simp [wSol, exGrid])
    (by simp only [wSol, exGrid]; intro τ hτ; simp at hτ; rcases hτ with rfl | rfl | rfl <;> norm_num) rfl rfl rfl hs'
  have ht0 : t₀ = 0 ∧ c = 1 := by
    rw [f1] at ht
    simp [wSol, exGrid] at ht
    obtain ⟨rfl, -, h2⟩ := ht
    exact ⟨rfl, by linarith⟩
  obtain ⟨rfl, rfl⟩ := ht0
  refine ⟨s', hs', f1, f2, f3, B, x, lam, ν₀, ν₁, by simpa using hext, hret, fun t ht => ?_⟩
  have hf : FindsMinimum wS U wq (userOcp U id B wP) (lam t) (x t) := by
    refine ⟨Function.update (x t) "u" 1, fun s hs => Function.update_of_ne (by
      rintro rfl
      exact hs (by simp [userOcp, wP, epsControls])) _ _, ?_, ?_, ?_, ?_⟩
    · intro σ _
      rw [w_ham, w_ham, Function.update_self]
      have := sq_nonneg (σ "u" * σ "u" - 1)
      norm_num
      exact this
    · intro u hu
      have : u = "u" := by simpa [userOcp, wP, epsControls] using hu
      subst this
      refine ⟨0, ?_⟩
      have hd : HasDerivAt (fun v : ℝ => (v * v - 1) ^ 2 + lam t "x") 0 (1 : ℝ) := by
        have := ((((hasDerivAt_id' (1 : ℝ)).mul (hasDerivAt_id' (1 : ℝ))).sub_const 1).pow 2).add_const (lam t "x")
        exact this.congr_deriv (by norm_num)
      simpa [HasPartial, w_ham] using hd
    · simp [SmoothRates, wq_parts, Smooth]
    · intro _
      have e : wS.solve (wq.controls.map fun u => (hexpr wq).diff u) wq.controls = [[("u", 0)], [("u", 1)], [("u", num (-1))]] := by
        decide +kernel
      refine ⟨[("u", 1)], by rw [e]; simp, fun v hv => ?_⟩
      rw [wq_parts.2.2.2.2.2.2, List.mem_singleton] at hv
      subst hv
      exact ⟨1, rfl, by simp [eval]⟩
  exact ⟨hf, hmin t (by simpa using ht) hf⟩

/-! ### The differential control law -/

/-- **C76 is violated by the differential control law.**  It only keeps the controls stationary: a motion along which the
Hamiltonian has its *maximum* at the control solves the boundary value problem that is generated for a stated problem. -/
theorem C76_violated : ∃ (S : Sympy) (o : Opts) (p p' : Prob), LuSound S ∧ Stated p ∧ o.controlMethod = .differential ∧
    o.method = .traditional ∧ indirect S o p = .ok p' ∧ ∀ U : Name → Nat → ℝ → ℝ, ∃ B ρ ν₀ ν₁, Solves U p' 0 1 ρ ∧
      Extremal (userOcp U id B p) 0 1 ρ (fun s n => ρ s ("_lam_" ++ n)) ν₀ ν₁ ∧
      ∀ t ∈ Set.Icc (0 : ℝ) 1, ¬ Minimal (userOcp U id B p) (fun n => ρ t ("_lam_" ++ n)) (ρ t) ∧
        ∃ r > 0, ∀ σ, SameBut p.controls (ρ t) σ → σ "u" ≠ ρ t "u" → |σ "u" - ρ t "u"| < r →
          (userOcp U id B p).ham (fun n => ρ t ("_lam_" ++ n)) σ < (userOcp U id B p).ham (fun n => ρ t ("_lam_" ++ n)) (ρ t) := by
  refine ⟨wS, { controlMethod := .differential }, wP, _, luSound_cramer wS rfl, wP_stated, rfl, rfl, wP'_ok (Or.inr rfl), ?_⟩
  intro U
  obtain ⟨q, B, hq, hB, h⟩ := C64_extremal_partial (luSound_cramer wS rfl) wP_stated (o := { controlMethod := .differential }) rfl (by decide)
    (by intro h; cases h) (wP'_ok (Or.inr rfl))
  rw [wq_ok] at hq
  cases hq
  have hext := h U id (w_completes U) 0 1 (wCurve 0 (-1)) (by norm_num) (w_mid U) (wRegular (by decide +kernel) (by decide +kernel) U) 1 (by
    have : "_delta_" ++ wP.ind = "_delta_t" := rfl
    rw [this]; simp [wCurve, wQ]) (by norm_num)
  have e : wCurve 0 (-1) 0 wP.ind = 0 := by simp [wP, wCurve]
  simp only [e, sub_zero, div_one, zero_add, one_mul] at hext
  refine ⟨B, wCurve 0 (-1), _, _, w_mid U, hext, fun t _ => ?_⟩
  have hu : wCurve 0 (-1) t "u" = 0 := by simp [wCurve, wQ]
  constructor
  · intro hm
    have := hm (Function.update (wCurve 0 (-1) t) "u" 1) fun s hs => Function.update_of_ne (by
      rintro rfl
      exact hs (by simp [userOcp, wP, epsControls])) _ _
    rw [w_ham, w_ham, hu, Function.update_self] at this
    norm_num at this
  · refine ⟨1, one_pos, fun σ _ h1 h2 => ?_⟩
    rw [w_ham, w_ham, hu]
    rw [hu, sub_zero] at h2
    rw [hu] at h1
    have h3 : 0 < σ "u" * σ "u" := mul_self_pos.2 h1
    have h4 : σ "u" * σ "u" < 1 := by
      obtain ⟨a1, a2⟩ := abs_lt.1 h2
      nlinarith
    nlinarith

end Beluga.E2E
