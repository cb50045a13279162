import Verif.EndToEnd.TopScaled
import Verif.EndToEnd.TopRun

/-!
# A run of `solve` with autoscaling (C75, C77)

Minimise `∫ k + u²` from `x = 0`, `t = 0` to `x = xf` with `x' = u`.  The unit of length has the size `xf`, that of time the
largest time of the guess.  For `k = 4`, `xf = 4` and a guess of two seconds, lengths are divided by 4 and times by 2.
-/

namespace Beluga.E2E

open Beluga.Sym Beluga.Sym.Expr Beluga.Num Beluga.Map Beluga.Opt Beluga.Rep
open Beluga.Shoot (Ivp IvpSound Complete NormSound Guess lastT Scipy Result)
open Beluga.Traj (Curve Simpson)
open Beluga.Homog (Dim.neg Dim.div Dim.sub mtr sec ConDim.plain)

/-! ### The problem -/

def dP : Prob := {
  ind := "t"
  states := [⟨"x", sym "u"⟩]
  controls := ["u"]
  constants := ["k", "xf"]
  costPath := sym "k" + sym "u" * sym "u"
  initial := [{ expr := sym "x" }, { expr := sym "t" }]
  terminal := [{ expr := sym "x" - sym "xf" }] }

/-- A solver that knows one equation. -/
def dS : Sympy where
  solve eqs syms :=
    if eqs = [hamiltonianOf (sym "k" + sym "u" * sym "u") [⟨"x", sym "u"⟩, ⟨"t", 1⟩]].map (Expr.diff "u") ∧ syms = ["u"]
    then [[("u", -(sym "_lam_x") / 2)]] else []
  lu := cramerLu
  integrate _ _ := 0

/-- The units of the components, of the cost and of the constraints. -/
def dT : Homog.Tab where
  decl := [("t", sec), ("x", mtr), ("u", mtr / sec), ("k", mtr / sec * (mtr / sec)), ("xf", mtr)]
  cost := mtr * mtr / sec
  initial := [mtr, sec]
  path := []
  terminal := [mtr]

def dP' : Prob := match indirect dS exO dP with
  | .ok p => p
  | .error _ => {}

theorem dP'_ok : indirect dS exO dP = .ok dP' := by
  have : (match indirect dS exO dP with | .ok _ => true | .error _ => false) = true := by decide +kernel
  rw [dP']
  cases h : indirect dS exO dP with
  | ok p => rfl
  | error e => rw [h] at this; cases this

def dT' : Homog.Tab := match Homog.indirectU dS exO (dP, dT) with
  | .ok x => x.2
  | .error _ => dT

theorem dU_ok : Homog.indirectU dS exO (dP, dT) = .ok (dP', dT') := by
  have : (match Homog.indirectU dS exO (dP, dT) with | .ok x => decide (x.1 = dP') | .error _ => false) = true := by decide +kernel
  rw [dT']
  cases h : Homog.indirectU dS exO (dP, dT) with
  | ok x =>
    rw [h] at this
    dsimp only at this ⊢
    rw [← of_decide_eq_true this]
  | error e => rw [h] at this; cases this

def dq : Prob := match primal dS dP with
  | .ok p => p
  | .error _ => {}

theorem dq_ok : primal dS dP = .ok dq := by
  have : (match primal dS dP with | .ok _ => true | .error _ => false) = true := by decide +kernel
  rw [dq]
  cases h : primal dS dP with
  | ok p => rfl
  | error e => rw [h] at this; cases this

theorem dP_stated : Stated dP where
  costates := rfl
  coparameters := rfl
  parameters := rfl
  quads := rfl
  law := rfl
  acyclic := ⟨fun _ => 0, by decide⟩
  reg := ⟨rfl, by decide, by decide, by decide, by simp [dP], by decide, by decide⟩
  inside := by decide
  ends := by decide
  bounds := by simp [dP]
  flat := by simp [dP]
  names := by decide
  trig := by decide +kernel
  plain := by decide +kernel
  free := by decide +kernel
  ind := by decide +kernel

theorem dS_sound : SolveSound dS := by
  intro U eqs syms sol hs σ hσ e he
  simp only [dS] at hs
  split at hs
  · next hc =>
    obtain ⟨rfl, rfl⟩ := hc
    simp only [List.mem_singleton] at hs
    subst hs
    obtain ⟨e', h1, -, h3⟩ := hσ "u" (by simp)
    cases h1
    simp only [List.map_cons, List.map_nil, List.mem_singleton] at he
    subst he
    simp [hamiltonianOf, diff, eval, lamName] at h3 ⊢
    rw [h3]
    ring
  · cases hs

theorem dq_states : dq.states = [⟨"x", sym "u"⟩, ⟨"t", 1⟩] := by decide +kernel
theorem dq_costPath : dq.costPath = sym "k" + sym "u" * sym "u" := by decide +kernel
theorem dq_costInitial : dq.costInitial = 0 := by decide +kernel
theorem dq_costTerminal : dq.costTerminal = 0 := by decide +kernel
theorem dq_initial : dq.initial = [{ expr := sym "x" }, { expr := sym "t" }] := by decide +kernel
theorem dq_terminal : dq.terminal = [{ expr := sym "x" - sym "xf" }] := by decide +kernel

theorem dP'_states : dP'.states = [⟨"x", sym "u" * sym "_delta_t"⟩, ⟨"t", 1 * sym "_delta_t"⟩,
    ⟨"_lam_x", -((hexpr dq).diff "x") * sym "_delta_t"⟩, ⟨"_lam_t", -((hexpr dq).diff "t") * sym "_delta_t"⟩] := by
  decide +kernel
theorem dP'_initial : dP'.initial.map Con.expr = [sym "x", sym "t", sym "_lam_x" + (phi0 dq).diff "x",
    sym "_lam_t" + (phi0 dq).diff "t"] := by decide +kernel
theorem dP'_terminal : dP'.terminal.map Con.expr = [sym "x" - sym "xf", sym "_lam_x" - (phif dq).diff "x",
    sym "_lam_t" - (phif dq).diff "t", (phif dq).diff "_t" + hexpr dq] := by decide +kernel
theorem dP'_rest : dP'.controls = ["u"] ∧ dP'.controlLaw = [[-(sym "_lam_x") / 2]] ∧ dP'.quads = [] ∧
    dP'.ind = "_tau" := by decide +kernel
theorem dP'_names : sts dP' = ["x", "t", "_lam_x", "_lam_t"] ∧ dP'.parameters = ["_delta_t"] ∧
    dP'.constraintParams = ["_nu_0_0", "_nu_0_1", "_nu_f_0"] ∧ dP'.constants = ["k", "xf"] := by decide +kernel

theorem dh : hexpr dq = sym "k" + sym "u" * sym "u" + sym "_lam_x" * sym "u" + sym "_lam_t" * 1 := by decide +kernel
theorem dphi0 : phi0 dq = 0 + sym "_nu_0_0" * sym "x" + sym "_nu_0_1" * sym "t" := by decide +kernel
theorem dphif : phif dq = 0 + sym "_nu_f_0" * (sym "x" + num (-1) * sym "xf") := by decide +kernel

/-! ### Units -/

def dΓ (n : Name) : Expr := dT'.of n

theorem dUnit (U : Name → Nat → ℝ → ℝ) (s : Name) : IsUnit U (dΓ s) := by
  have hm : IsUnit U mtr := fun φ hφ => hφ "m"
  have hs : IsUnit U sec := fun φ hφ => hφ "s"
  have hc : IsUnit U (mtr * mtr / sec) := Homog.IsUnit.div (Homog.IsUnit.mul hm hm) hs
  rw [dΓ, Homog.Tab.of]
  cases hl : dT'.decl.lookup s with
  | none => exact Homog.isUnit_one
  | some d =>
    obtain ⟨l1, l2, e, -⟩ := List.lookup_eq_some_iff.1 hl
    have : (s, d) ∈ dT'.decl := by rw [e]; simp
    have hd : dT'.decl = [("t", sec), ("x", mtr), ("u", mtr / sec), ("k", mtr / sec * (mtr / sec)), ("xf", mtr), ("_t", sec),
      ("_nu_0_0", mtr * mtr / sec / mtr), ("_nu_0_1", mtr * mtr / sec / sec), ("_nu_f_0", mtr * mtr / sec / mtr),
      ("_lam_x", mtr * mtr / sec / mtr), ("_lam_t", mtr * mtr / sec / sec), ("_delta_t", sec), ("_tau", 1)] := by decide +kernel
    rw [hd] at this
    simp only [List.mem_cons, Prod.mk.injEq, List.not_mem_nil, or_false] at this
    rw [Option.getD_some]
    have h2 : IsUnit U (mtr * mtr / sec / mtr) := Homog.IsUnit.div hc hm
    have h3 : IsUnit U (mtr * mtr / sec / sec) := Homog.IsUnit.div hc hs
    have h4 : IsUnit U (mtr / sec) := Homog.IsUnit.div hm hs
    have h5 : IsUnit U (mtr / sec * (mtr / sec)) := Homog.IsUnit.mul h4 h4
    have h6 : IsUnit U 1 := Homog.isUnit_one
    rcases this with ⟨-, rfl⟩ | ⟨-, rfl⟩ | ⟨-, rfl⟩ | ⟨-, rfl⟩ | ⟨-, rfl⟩ | ⟨-, rfl⟩ | ⟨-, rfl⟩ | ⟨-, rfl⟩ | ⟨-, rfl⟩ | ⟨-, rfl⟩ |
      ⟨-, rfl⟩ | ⟨-, rfl⟩ | ⟨-, rfl⟩ <;> assumption

theorem dConsistent (U : Name → Nat → ℝ → ℝ) : Homog.Consistent U dΓ (dΓ dP.ind) dP dT where
  dyn d hd := by
    have : d = ⟨"x", sym "u"⟩ := by simpa [dP] using hd
    subst this
    exact .sym "u"
  quad d hd := by simp [dP] at hd
  initial := .cons (ConDim.plain (.sym "x")) (.cons (ConDim.plain (.sym "t")) .nil)
  path := .nil
  terminal := .cons (ConDim.plain (Dim.sub (.sym "x") (.sym "xf"))) .nil
  costInitial := .zero Homog.exCost_unit
  costPath := by
    refine .add (.conv (.sym "k") ?_) (.conv (.mul (.sym "u") (.sym "u")) ?_) <;>
    · intro φ hφ
      change eval (real U) φ (mtr / sec * (mtr / sec)) = eval (real U) φ (mtr * mtr / sec / sec)
      have : eval (real U) φ sec ≠ 0 := (hφ "s").ne'
      simp only [eval_mul, eval_div]
      field_simp
  costTerminal := .zero Homog.exCost_unit
  quantities q hq := by simp [dP] at hq
  switches s hs := by simp [dP] at hs
  hamiltonian H hH := by simp [dP] at hH
  law o ho := by simp [dP] at ho
  named := by decide +kernel

theorem dDimensional (U : Name → Nat → ℝ → ℝ) : Dimensional U dΓ dS exO dP dP' dT dT' where
  lu := Homog.luDim_cramer _ rfl
  solve := by
    intro _ eqs syms _ o ho x hx
    simp only [dS] at ho
    split at ho
    · simp only [List.mem_singleton] at ho
      subst ho
      simp only [List.mem_singleton] at hx
      subst hx
      refine .conv (Dim.div (Dim.neg (.sym "_lam_x")) (.num 2)) ?_
      intro φ hφ
      have e1 : dΓ "_lam_x" = mtr * mtr / sec / mtr := by decide +kernel
      have e2 : dΓ "u" = mtr / sec := by decide +kernel
      have : eval (real U) φ mtr ≠ 0 := (hφ "m").ne'
      dsimp only
      rw [e1, e2]
      simp only [eval_mul, eval_div, eval_one']
      field_simp
    · cases ho
  stated := dConsistent U
  switches := by simp [dP]
  generated := dU_ok
  agrees := by
    have : (dT'.decl.all fun x => dΓ x.1 = x.2) = true := by decide +kernel
    simpa [Homog.Agrees] using this
  names := by decide +kernel

/-! ### The solution -/

/-- Constant speed `v` for the time `T`. -/
noncomputable def cruise (v T τ : ℝ) (s : Name) : ℝ :=
  if s = "_tau" then τ else if s = "t" then T * τ else if s = "x" then v * T * τ else if s = "u" then v
  else if s = "_delta_t" then T else if s = "_lam_x" ∨ s = "_nu_f_0" then -2 * v else if s = "_nu_0_0" then 2 * v
  else if s = "k" then v * v else if s = "xf" then v * T else 0

noncomputable def cruiseRow (v T τ : ℝ) : List ℝ := [v * T * τ, T * τ, -2 * v, 0]

theorem cruise_const {v T : ℝ} (s : Name) (h : s ≠ "x") (h2 : s ≠ "t") (h3 : s ≠ "_tau") (τ τ' : ℝ) :
    cruise v T τ s = cruise v T τ' s := by
  simp [cruise, h, h2, h3]

theorem cruise_moves {v T : ℝ} (s : Name) (h : s ≠ "x") (h2 : s ≠ "t") (h3 : s ≠ "_tau") : Moves 0 1 (cruise v T) 0 s := by
  intro t _
  rw [show (fun τ => cruise v T τ s) = fun _ => cruise v T 0 s from funext fun τ => cruise_const s h h2 h3 τ 0]
  exact hasDerivAt_const _ _

theorem cruiseSolves (U : Name → Nat → ℝ → ℝ) (v T : ℝ) : NearlySolves U dP' 0 0 1 (cruise v T) where
  follows := by
    intro t ht d hd
    rw [dP'_states, dh] at hd
    simp only [List.mem_cons, List.not_mem_nil, or_false] at hd
    rcases hd with rfl | rfl | rfl | rfl
    · have : HasDerivAt (fun τ => cruise v T τ "x") (v * T * 1) t := by
        rw [show (fun τ => cruise v T τ "x") = fun τ => v * T * τ from funext fun τ => by simp [cruise]]
        exact (hasDerivAt_id' t).const_mul _
      simpa [eval, cruise] using this
    · have : HasDerivAt (fun τ => cruise v T τ "t") (T * 1) t := by
        rw [show (fun τ => cruise v T τ "t") = fun τ => T * τ from funext fun τ => by simp [cruise]]
        exact (hasDerivAt_id' t).const_mul _
      simpa [eval, cruise] using this
    · have := cruise_moves (v := v) (T := T) "_lam_x" (by decide) (by decide) (by decide) t ht
      simpa [eval, diff, cruise] using this
    · have := cruise_moves (v := v) (T := T) "_lam_t" (by decide) (by decide) (by decide) t ht
      simpa [eval, diff, cruise] using this
  fixed := by
    intro s h1 h2 h3 h4
    rw [dP'_states] at h1
    rw [dP'_rest.2.2.2] at h4
    simp only [List.map_cons, List.mem_cons, not_or] at h1
    exact cruise_moves s h1.1 h1.2.1 h4
  law := by
    intro _ t _
    rw [dP'_rest.1, dP'_rest.2.1]
    refine ⟨_, List.mem_singleton_self _, ?_⟩
    simp [eval, cruise]
  initial := by
    intro c hc
    have : c.expr ∈ dP'.initial.map Con.expr := List.mem_map.2 ⟨c, hc, rfl⟩
    rw [dP'_initial, dphi0] at this
    simp only [List.mem_cons, List.not_mem_nil, or_false] at this
    rcases this with h | h | h | h <;> rw [h] <;> simp [eval, diff, cruise]
  terminal := by
    intro c hc
    have : c.expr ∈ dP'.terminal.map Con.expr := List.mem_map.2 ⟨c, hc, rfl⟩
    rw [dP'_terminal, dphif, dh] at this
    simp only [List.mem_cons, List.not_mem_nil, or_false] at this
    rcases this with h | h | h | h <;> rw [h] <;> (simp [eval, diff, cruise]; try ring)

theorem cruiseRegular (U : Name → Nat → ℝ → ℝ) (v T : ℝ) : Regular dS U dq dP' 0 1 (cruise v T) := by
  have hends : ∀ ρ, SmoothEnds dq U ρ := by
    intro ρ
    rw [SmoothEnds, dq_costInitial, dq_costTerminal, dq_initial, dq_terminal]
    refine ⟨trivial, trivial, ?_⟩
    intro c hc
    simp only [List.mem_append, List.mem_cons, List.not_mem_nil, or_false] at hc
    rcases hc with (rfl | rfl) | rfl
    · trivial
    · trivial
    · exact smooth_sub trivial trivial
  refine ⟨?_, (hends _).start, (hends _).stop, ?_, ?_, ?_, ?_, ?_⟩
  · intro t _
    rw [SmoothRates, dq_costPath, dq_states]
    refine ⟨⟨trivial, trivial, trivial⟩, ?_⟩
    intro s hs
    simp only [List.mem_cons, List.not_mem_nil, or_false] at hs
    rcases hs with rfl | rfl <;> trivial
  · intro t _ u _
    rw [dh]
    simp only [diff]
    refine ⟨⟨⟨?_, ⟨?_, ?_⟩, ?_, ?_⟩, ⟨?_, ?_⟩, ?_, ?_⟩, ⟨?_, ?_⟩, ?_, ?_⟩ <;> (try split) <;> trivial
  · intro t _ d hd
    rw [dP'_states, dh] at hd
    simp only [List.mem_cons, List.not_mem_nil, or_false] at hd
    rcases hd with rfl | rfl | rfl | rfl
    · exact ⟨trivial, trivial⟩
    · exact ⟨trivial, trivial⟩
    · exact ⟨⟨trivial, ⟨⟨trivial, ⟨trivial, trivial⟩, trivial, trivial⟩, ⟨trivial, trivial⟩, trivial, trivial⟩,
        ⟨trivial, trivial⟩, trivial, trivial⟩, trivial⟩
    · exact ⟨⟨trivial, ⟨⟨trivial, ⟨trivial, trivial⟩, trivial, trivial⟩, ⟨trivial, trivial⟩, trivial, trivial⟩,
        ⟨trivial, trivial⟩, trivial, trivial⟩, trivial⟩
  · intro t _ opt ho e he
    rw [dP'_rest.2.1, List.mem_singleton] at ho
    subst ho
    rw [List.mem_singleton] at he
    subst he
    refine ⟨⟨trivial, trivial⟩, trivial, ?_⟩
    simp [eval]
  · intro t ht u hu
    rw [dP'_rest.1, List.mem_singleton] at hu
    subst hu
    exact (cruise_moves "u" (by decide) (by decide) (by decide) t ht).differentiableAt
  · intro om ho
    rw [(by decide +kernel : dP'.omega = none)] at ho
    cases ho

theorem cruiseRead (U : Name → Nat → ℝ → ℝ) (v T : ℝ) :
    Reads U dP' 0 1 (cruiseRow v T) [T] [2 * v, 0, -2 * v] [v * v, v * T] (cruise v T) := by
  obtain ⟨h1, h2, h3, h4⟩ := dP'_names
  obtain ⟨r1, r2, r3, r4⟩ := dP'_rest
  refine ⟨?_, ?_, ?_, ?_, ?_, ?_⟩
  · intro t
    rw [h1]
    simp [cruise, cruiseRow]
  · intro t _ u hu
    obtain ⟨opt, ho, rfl⟩ := computeU_some (σ := cruise v T t) (by rw [h1]; simp [cruise, cruiseRow]) (by rw [h2]; simp [cruise])
      (by rw [h4]; simp [cruise]) hu
    rw [r2, List.mem_singleton] at ho
    subst ho
    rw [r1]
    simp [cruise, eval]
  · intro t
    rw [h2]
    simp [cruise]
  · intro t
    rw [h3]
    simp [cruise]
  · intro t
    rw [h4]
    simp [cruise]
  · intro s n1 n2 n3 t t'
    rw [h1] at n1
    rw [r4] at n3
    simp only [List.mem_cons, not_or] at n1
    exact cruise_const s n1.1 n1.2.1 n3 t t'

theorem cruiseNum (U : Name → Nat → ℝ → ℝ) (v T : ℝ) :
    NumNear U dP' 0 0 1 (cruiseRow v T) [T] [2 * v, 0, -2 * v] [v * v, v * T] := by
  refine numNear_of_nearly (cruiseRead U v T) (by norm_num) dP'_rest.2.2.1 (cruiseSolves U v T) ?_ ?_
  · intro t _
    refine ok_of ?_
    rfl
  · refine ok_of ?_
    rfl

theorem cruiseRates (U : Name → Nat → ℝ → ℝ) (v T : ℝ) {t : ℝ} (ht : t ∈ Set.Icc (0 : ℝ) 1) :
    derivFunc (real U) dP' (cruiseRow v T t) [T] [v * v, v * T] = .ok [v * T, T, 0, 0] := by
  obtain ⟨w, hw, -⟩ := (cruiseNum U v T).rates t ht
  rw [hw, atPoint_val (cruiseRead U v T) ht hw, dP'_states, dh]
  simp [eval, diff, cruise]

theorem dId (U : Name → Nat → ℝ → ℝ) : Completes U dP fun σ => σ where
  off := fun _ _ _ => rfl
  quantities := by simp [dP]
  switches := by simp [dP]
  trig := by
    intro σ
    simp [TrigEnv, dP]

/-! ### The run -/

/-- The guess in the user's units. -/
noncomputable def dGuess : Sol ℝ where
  t := [0, 1]
  dualT := []
  y := .rows 4 [[0, 0, -2, 0], [4, 2, -2, 0]]
  dual := .empty
  q := .empty
  u := .empty
  dualU := .empty
  dyn := [2]
  nondyn := [4, 0, -4]
  const := [4, 4]
  converged := false
  cost := none

/-- `ocp.unit('m', 'xf')`, `ocp.unit('s', 't')` and the declared units. -/
def dUn : Units where
  defs := [("m", sym "xf"), ("s", sym "t")]
  ind := dΓ dP'.ind
  states := (sts dP').map dΓ
  quads := (qds dP').map dΓ
  controls := dP'.controls.map dΓ
  parameters := dP'.parameters.map dΓ
  constraintParams := dP'.constraintParams.map dΓ
  constants := dP'.constants.map dΓ

noncomputable def dφ (s : Name) : ℝ := if s = "m" then 4 else if s = "s" then 2 else 1

theorem dSizes (U : Name → Nat → ℝ → ℝ) : Sizes U dΓ dφ where
  pos s := by
    rw [dφ]
    split_ifs <;> norm_num
  unit := dUnit U

/-- The largest magnitudes of the guess. -/
noncomputable def dMag (s : Name) : ℝ :=
  if s = "_tau" then 1 else if s = "x" ∨ s = "k" ∨ s = "xf" ∨ s = "_nu_0_0" ∨ s = "_nu_f_0" then 4
  else if s = "t" ∨ s = "_lam_x" ∨ s = "_delta_t" then 2 else 0

theorem dFactored (U : Name → Nat → ℝ → ℝ) : Factored U dΓ dφ dP' dUn dGuess := by
  obtain ⟨h1, h2, h3, h4⟩ := dP'_names
  have hq : qds dP' = [] := by rw [qds, dP'_rest.2.2.1]; rfl
  refine C18_factors (m := dMag) ?_ ?_ ?_ ?_ ?_ ?_ ?_ ?_ ⟨rfl, rfl, rfl, rfl, rfl, rfl, rfl⟩ ?_
  · rw [dP'_rest.2.2.2]
    simp [dMag, maxAbs]
  · rw [h1]
    simp [dGuess, dMag, maxMag, maxAbs, List.range, List.range.loop]
  · rw [hq]
    rfl
  · rw [h2]
    simp [dGuess, dMag]
  · rw [h3]
    simp [dGuess, dMag]
  · rw [h4]
    simp [dGuess, dMag]
  · intro d hd
    simp only [dUn, List.mem_cons, List.not_mem_nil, or_false] at hd
    rcases hd with rfl | rfl <;> simp [dφ, dMag, eval]
  · intro d hd s hs
    simp only [dUn, List.mem_cons, List.not_mem_nil, or_false] at hd
    rw [h1, h4]
    rcases hd with rfl | rfl <;> (simp [free] at hs; subst hs; simp)
  · decide +kernel

theorem dφ_sizes (U : Name → Nat → ℝ → ℝ) : eval (real U) dφ (dΓ dP'.ind) = 1 ∧ sizes U dΓ dφ (sts dP') = [4, 2, 2, 4] ∧
    sizes U dΓ dφ (qds dP') = [] ∧ sizes U dΓ dφ dP'.controls = [2] ∧
    sizes U dΓ dφ dP'.parameters = [2] ∧ sizes U dΓ dφ dP'.constraintParams = [2, 4, 2] ∧
    sizes U dΓ dφ dP'.constants = [4, 4] := by
  obtain ⟨h1, h2, h3, h4⟩ := dP'_names
  obtain ⟨r1, -, r3, r4⟩ := dP'_rest
  have hq : qds dP' = [] := by rw [qds, r3]; rfl
  have em : eval (real U) dφ mtr = 4 := rfl
  have es : eval (real U) dφ sec = 2 := rfl
  have e1 : dΓ "x" = mtr ∧ dΓ "t" = sec ∧ dΓ "u" = mtr / sec ∧ dΓ "_lam_x" = mtr * mtr / sec / mtr ∧
    dΓ "_lam_t" = mtr * mtr / sec / sec ∧ dΓ "_delta_t" = sec ∧ dΓ "_nu_0_0" = mtr * mtr / sec / mtr ∧
    dΓ "_nu_0_1" = mtr * mtr / sec / sec ∧ dΓ "_nu_f_0" = mtr * mtr / sec / mtr ∧ dΓ "k" = mtr / sec * (mtr / sec) ∧
    dΓ "xf" = mtr ∧ dΓ "_tau" = 1 := by decide +kernel
  obtain ⟨e1, e2, e3, e4, e5, e6, e7, e8, e9, e10, e11, e12⟩ := e1
  rw [h1, h2, h3, h4, r1, r4, hq]
  simp only [sizes, List.map_cons, List.map_nil, e1, e2, e3, e4, e5, e6, e7, e8, e9, e10, e11, e12, eval_mul, eval_div, em, es,
    eval_one']
  norm_num

theorem dLargest (U : Name → Nat → ℝ → ℝ) : Largest U dφ dT' 4 := by
  have h : dT'.initial ++ dT'.terminal = [mtr, sec, mtr * mtr / sec / mtr, mtr * mtr / sec / sec, mtr, mtr * mtr / sec / mtr,
    mtr * mtr / sec / sec, mtr * mtr / sec / sec] := by decide +kernel
  have em : eval (real U) dφ mtr = 4 := rfl
  have es : eval (real U) dφ sec = 2 := rfl
  intro u hu
  rw [h] at hu
  simp only [List.mem_cons, List.not_mem_nil, or_false] at hu
  rcases hu with rfl | rfl | rfl | rfl | rfl | rfl | rfl | rfl <;> simp only [eval_mul, eval_div, em, es] <;> norm_num

/-- The guess that the solver gets. -/
noncomputable def dScaled : Sol ℝ :=
  { dGuess with
    y := .rows 4 [[0, 0, -1, 0], [1, 1, -1, 0]], dyn := [1], nondyn := [2, 0, -2], const := [1, 1] }

noncomputable def dFactors : Factors ℝ := ⟨1, [4, 2, 2, 4], [], [2], [2], [2, 4, 2], [4, 4]⟩

theorem dScaled_ok : scaleSol (· / ·) dFactors dGuess = .ok dScaled := by
  rw [scaleSol]
  simp only [dGuess, dFactors, bcastArr, bcast, nonEmpty]
  simp [dScaled, dGuess, bind, Except.bind]
  norm_num
  rfl

/-- What the solver is given besides. -/
noncomputable def dSolver (simp : Simpson ℝ) (Sc : Scipy ℝ) : Solver := .shooting {
  ivp := step
  simpson := simp
  scipy := Sc
  norm := euclid
  newton := fun _ _ => .ok [0, 0, -1, 0, 0, 0, 0, 0]
  opts := ⟨1 / 10, 100, 10⟩
  alg := "Armijo"
  fuel := 5 }

theorem dSolver_ok (simp : Simpson ℝ) (Sc : Scipy ℝ) : (dSolver simp Sc).Ok :=
  Shooter.Ok.mk step_sound step_complete Shoot.euclid_sound
    (by change "Armijo".toLower = "armijo"; decide +kernel) (le_refl 5) (by norm_num)

theorem dScaled_guess : Guess 4 0 (toCurve dScaled) where
  times := by simp [toCurve, dScaled, dGuess]
  two := by simp [toCurve, dScaled, dGuess]
  y := ⟨_, rfl, rfl, by simp⟩
  q := .inl ⟨rfl, rfl⟩
  u := .inl rfl

theorem dGuess_guess : Guess 4 0 (toCurve dGuess) where
  times := by simp [toCurve, dGuess]
  two := by simp [toCurve, dGuess]
  y := ⟨_, rfl, rfl, by simp⟩
  q := .inl ⟨rfl, rfl⟩
  u := .inl rfl

/-- The solver, called on the scaled guess, accepts the line with the speed 1 after one step. -/
theorem dShoot (U : Name → Nat → ℝ → ℝ) (simp : Simpson ℝ) (Sc : Scipy ℝ) :
    solveSol (dSolver simp Sc) U dP' dScaled = .ok (some { dScaled with
      t := [0, 1], y := .rows 4 [cruiseRow 1 1 0, cruiseRow 1 1 1], dyn := [1], nondyn := [2, 0, -2], converged := true }) := by
  obtain ⟨f0, hf0⟩ : ∃ f, derivFunc (real U) dP' [0, 0, -1, 0] [1] [1, 1] = .ok f := by
    refine ok_of ?_
    rfl
  have hcn := cruiseNum U 1 1
  norm_num at hcn
  obtain ⟨b, hb, hle⟩ := hcn.boundary
  have hlen : (bcFunc (real U) dP' (cruiseRow 1 1 0) [] (cruiseRow 1 1 1) [] [1] [2, 0, -2] [1, 1]).map List.length = .ok 8 := rfl
  rw [hb] at hlen
  have hlen : b.length = 8 := Except.ok.inj hlen
  have hq : quadFn U dP' = none := by rw [quadFn, quadFunc, dP'_rest.2.2.1]; rfl
  have hi0 : step (fun y => derivFunc (real U) dP' y [1] [1, 1]) [0, 1] [0, 0, -1, 0] =
      .ok ([0, 1], [[0, 0, -1, 0], (List.range 4).map fun j => ([0, 0, -1, 0] : List ℝ).getD j 0 + (1 - 0) * f0.getD j 0]) := by
    rw [step, hf0]
    rfl
  obtain ⟨v0, hv0⟩ : ∃ v, bcFunc (real U) dP' [0, 0, -1, 0] [] ((List.range 4).map fun j => ([0, 0, -1, 0] : List ℝ).getD j 0 +
      (1 - 0) * f0.getD j 0) [] [1] [2, 0, -2] [1, 1] = .ok v := by
    refine ok_of ?_
    rfl
  have hrates := cruiseRates U 1 1 (t := 0) (by norm_num)
  norm_num at hrates
  have hi1 : step (fun y => derivFunc (real U) dP' y [1] [1, 1]) [0, 1] (cruiseRow 1 1 0) =
      .ok ([0, 1], [cruiseRow 1 1 0, cruiseRow 1 1 1]) := by
    rw [step, hrates]
    change Except.ok _ = Except.ok _
    simp [cruiseRow, List.range, List.range.loop, lastT]
  obtain ⟨r, hr, hc, h1, h2, h3, h4⟩ := Shoot.C42_accepts (E := shootEnv step simp U dP' [1, 1]) step_sound step_complete rfl hq Sc euclid
    (newton := fun _ _ => .ok [0, 0, -1, 0, 0, 0, 0, 0]) (o := ⟨1 / 10, 100, 10⟩) (alg := "Armijo") (by norm_num)
    (by decide +kernel) (le_refl 5) dScaled_guess (y0 := [0, 0, -1, 0]) (p := [1]) (pn := [2, 0, -2]) rfl hi0
    ((bcFn_five dP'_rest.2.2.1 ..).trans hv0) rfl (y1 := cruiseRow 1 1 0) (p1 := [1]) (pn1 := [2, 0, -2])
    (by simp [cruiseRow]; norm_num) rfl rfl hi1
    ((bcFn_five dP'_rest.2.2.1 ..).trans hb) (euclid_le hlen fun x hx => (hle x hx).trans (by norm_num))
  have hs : solveSol (dSolver simp Sc) U dP' dScaled = .ok (some (fromResult dScaled r)) := by
    change (Shoot.solve _ _ _ _ _ _ _ _ _ _ _ >>= _) = _
    refine (congrArg (· >>= _) hr).trans ?_
    rfl
  have hqq : ofRows r.q = .empty := (shootSol_guess (dSolver_ok simp Sc) dScaled_guess hs).2.2
  rw [hs, fromResult, hqq, h1, h2, h3, h4, hc]
  rfl

/-- The result in the user's units. -/
noncomputable def dResult : Sol ℝ :=
  { dGuess with
    t := [0, 1], y := .rows 4 [cruiseRow 2 2 0, cruiseRow 2 2 1], dyn := [2], nondyn := [4, 0, -4], converged := true }

theorem dPass (U : Name → Nat → ℝ → ℝ) (simp : Simpson ℝ) (Sc : Scipy ℝ) :
    solvePass (dSolver simp Sc) U dP' (some dUn) dGuess = .ok (some dResult) := by
  have hF := dFactored U
  rw [Factored] at hF
  obtain ⟨e1, e2, e3, e4, e5, e6, e7⟩ := dφ_sizes U
  rw [e1, e2, e3, e4, e5, e6, e7] at hF
  rw [solvePass, hF, Num.ok_bind, show (⟨1, [4, 2, 2, 4], [], [2], [2], [2, 4, 2], [4, 4]⟩ : Factors ℝ) = dFactors from rfl, dScaled_ok,
    Num.ok_bind, dShoot, Num.ok_bind]
  dsimp only
  have : scaleSol (· * ·) dFactors { dScaled with
      t := [0, 1], y := .rows 4 [cruiseRow 1 1 0, cruiseRow 1 1 1], dyn := [1], nondyn := [2, 0, -2], converged := true } =
      .ok dResult := by
    rw [scaleSol]
    simp only [dGuess, dScaled, dFactors, bcastArr, bcast, nonEmpty, cruiseRow]
    simp [dResult, dGuess, bind, Except.bind, cruiseRow]
    norm_num
    rfl
  rw [this]
  rfl

theorem dInv (U : Name → Nat → ℝ → ℝ) (O : TrigOps ℝ) : ∃ s', invIndirect dS O trapezoids (real U) exO dP dResult = .ok s' ∧
    s'.t = [0, 2] ∧ s'.const = [4, 4] := by
  obtain ⟨s', hs'⟩ : ∃ s', invIndirect dS O trapezoids (real U) exO dP dResult = .ok s' := by
    refine ok_of ?_
    rfl
  have ht : s'.t = [2 * 0, 2 * 1] ∧ s'.const = [4, 4] := by
    cases hs'
    exact ⟨rfl, rfl⟩
  exact ⟨s', hs', by rw [ht.1]; norm_num, ht.2⟩

theorem dTimes {s' : Sol ℝ} (h : s'.t = [0, 2]) {t₀ c : ℝ} (ht : s'.t = dResult.t.map (fun τ => t₀ + c * (τ - dGuess.t.getD 0 0))) :
    t₀ = 0 ∧ t₀ + c * (lastT dGuess.t - dGuess.t.getD 0 0) = 2 := by
  have hlast : lastT dGuess.t = 1 := rfl
  have hfirst : dGuess.t.getD 0 0 = 0 := rfl
  rw [h, hfirst, show dResult.t = [0, 1] from rfl] at ht
  rw [hlast, hfirst]
  simp only [List.map_cons, List.map_nil, List.cons.injEq, and_true] at ht
  exact ⟨by linarith [ht.1], ht.2.symm⟩

/-- `compute_scale_factors`, `scale_sol`, `solve`, `scale_sol` on the guess: the user gets samples of an extremal up to 4/10, where
4 is the size of the unit of length. -/
example (U : Name → Nat → ℝ → ℝ) (O : TrigOps ℝ) (hO : O.sin = Real.sin) (simp : Simpson ℝ) (Sc : Scipy ℝ) :
    ∃ s', solvePass (dSolver simp Sc) U dP' (some dUn) dGuess = .ok (some dResult) ∧
      invIndirect dS O trapezoids (real U) exO dP dResult = .ok s' ∧ s'.t = [0, 2] ∧
      ∃ B x lam ν₀ ν₁, NearExtremal (userOcp U (fun σ => σ) B dP) (4 / 10) 0 0 2 x lam ν₀ ν₁ ∧
        Returned (fun σ => σ) dP x lam s' := by
  obtain ⟨s', hs', ht, -⟩ := dInv U O
  refine ⟨s', dPass U simp Sc, hs', ht, ?_⟩
  obtain ⟨q, B, hq, -, h⟩ := C75_autoscaled_partial (luSound_cramer dS rfl) dP_stated (o := exO) rfl rfl (by decide)
    (fun _ => dS_sound) dP'_ok
  rw [dq_ok] at hq
  cases hq
  have hD := dDimensional U
  have hst : dP'.states.length = 4 := by decide +kernel
  have hnum := cruiseNum U 2 2
  have hread := cruiseRead U 2 2
  norm_num at hnum hread
  obtain ⟨t₀, c, x, lam, ν₀, ν₁, -, hext, ht', hret, -⟩ := h U (fun σ => σ) (dId U) O trapezoids hO dΓ dφ dT dT' (dSizes U) hD.lu hD.solve
    hD.stated hD.switches hD.generated hD.agrees hD.names 4 (dLargest U) (dSolver simp Sc) dUn dGuess dResult (dSolver_ok simp Sc)
    (by rw [hst]; exact dGuess_guess) (dFactored U) (dPass U simp Sc) rfl (by simp [dResult]) (cruiseRow 2 2) (by rw [hst]; rfl)
    hnum.rates (cruise 2 2) hread (cruiseRegular U 2 2) s' hs'
  obtain ⟨e1, e2⟩ := dTimes ht ht'
  rw [e2, e1, show (dSolver simp Sc).tol * 4 = 4 / 10 by norm_num [dSolver, Solver.tol]] at hext
  exact ⟨B, x, lam, ν₀, ν₁, by simpa [exO] using hext, hret⟩

/-- `solve` with autoscaling and without continuation steps. -/
noncomputable def dConfig (U : Name → Nat → ℝ → ℝ) (O : TrigOps ℝ) (simp : Simpson ℝ) (Sc : Scipy ℝ) (log : LogOps ℝ) : Config where
  sympy := dS
  trig := O
  rule := trapezoids
  functions := U
  opts := exO
  solver := dSolver simp Sc
  log := log
  fuel := 0
  steps := none
  units := some dUn

/-- The guess is `dGuess`. -/
noncomputable def dWorld : Solve.World Prob Bvp (Sol ℝ) := { exWorld with generate := fun _ _ _ => .ok dGuess }

/-- `solve(ocp=dP, method='indirect', save_sols=False, autoscale=True, …)`. -/
def dArgs : Solve.Args Prob Bvp (Sol ℝ) := { ocp := some dP, method := "indirect", saveSols := .flag false }

/-- `solve` returns one solution, flagged as converged, over the times 0 and 2, and its tables are samples of an extremal up
to 4/10. -/
example (U : Name → Nat → ℝ → ℝ) (O : TrigOps ℝ) (hO : O.sin = Real.sin) (simp : Simpson ℝ) (Sc : Scipy ℝ) (log : LogOps ℝ) :
    ∃ s', (Solve.solve (world (dConfig U O simp Sc log) dWorld) dArgs).1 = .ok [[s']] ∧ s'.converged = true ∧ s'.t = [0, 2] ∧
      ∃ B x lam ν₀ ν₁, NearExtremal (userOcp U (fun σ => σ) B dP) (4 / 10) 0 0 2 x lam ν₀ ν₁ ∧
        Returned (fun σ => σ) dP x lam s' := by
  obtain ⟨s', hs', ht, hk⟩ := dInv U O
  have hmeth : (dConfig U O simp Sc log).opts.method = if dArgs.method.toLower = "diffyg" then .diffyg else .traditional :=
    (if_neg (by decide +kernel)).symm
  obtain ⟨b, f, hprep, hbp⟩ := prepare_ok (c := dConfig U O simp Sc log) (w := dWorld) (a := dArgs) (p := dP) rfl
    (by decide +kernel) hmeth dP'_ok
  have hrun : runSet (dConfig U O simp Sc log) b dGuess = .ok [[dResult]] := by
    have : pass (dConfig U O simp Sc log) b.prob 0 (toTraj dGuess) = .ok (toTraj dResult) := by
      rw [pass, hbp]
      refine (congrArg (· >>= _) (dPass U simp Sc)).trans ?_
      rfl
    have := Cont.C15_no_steps (L := log) (names := b.prob.constants) 0 _ _ this
    change (match Cont.runContinuationSet log (pass (dConfig U O simp Sc log) b.prob) b.prob.constants 0 none (toTraj dGuess) with
      | .returned l => .ok (l.map fun l => l.map ofTraj)
      | .raised e => .error e
      | .running => .error .runtimeError : Py _) = _
    rw [this]
    rfl
  have hsolve : (Solve.solve (world (dConfig U O simp Sc log) dWorld) dArgs).1 = .ok [[s']] := by
    have hmain : Solve.main (world (dConfig U O simp Sc log) dWorld) dArgs dP =
        .ok (b, invIndirect dS O trapezoids (real U) exO dP, [[dResult]]) := by
      rw [Solve.main, hprep, Num.ok_bind]
      change (runSet (dConfig U O simp Sc log) b dGuess >>= _) = _
      rw [hrun]
      rfl
    have hpost : Solve.postprocessContinuations (invIndirect dS O trapezoids (real U) exO dP) [[dResult]] = .ok [[s']] := by
      rw [Solve.postprocessContinuations]
      simp [hs']
    exact solve_value (by decide) rfl rfl hmain hpost
  have hst : dP'.states.length = 4 := by decide +kernel
  obtain ⟨b', g, q, B, calls, hand, e1, hq, -, -, hnone, hcall, hall⟩ := C77_autoscaled_partial (c := dConfig U O simp Sc log)
    (w := dWorld) (a := dArgs) (luSound_cramer dS rfl) (fun _ => dS_sound) rfl (dSolver_ok simp Sc) hO rfl dP_stated rfl rfl rfl
    (by decide +kernel) hmeth (by
      rintro b s ⟨f, inv, s0, s1, h1, h2, h3, h4⟩
      obtain ⟨e1, -⟩ := prepare_world (c := dConfig U O simp Sc log) (w := dWorld) (a := dArgs) rfl (by decide +kernel) hmeth h1
      have e1 : indirect dS exO dP = .ok b.prob := e1
      rw [dP'_ok] at e1
      cases h2
      cases h3
      cases h4
      rw [← Except.ok.inj e1]
      exact ⟨by rw [hst]; exact dGuess_guess, by rw [show dP'.constants.length = 2 by decide +kernel]; rfl⟩) hsolve
  have e1 : indirect dS exO dP = .ok b'.prob := e1
  rw [dP'_ok] at e1
  have e1 := Except.ok.inj e1
  have hg : g = dGuess := by
    obtain ⟨f, inv, s0, s1, -, h2, h3, h4⟩ := hand
    cases h2
    cases h3
    cases h4
    rfl
  have hq : primal dS dP = .ok q := hq
  rw [dq_ok] at hq
  cases hq
  subst hg
  obtain ⟨r', rfl⟩ := hnone rfl
  have hr' : r' = dResult := by
    cases hcall with
    | cons h5 _ =>
      cases h5 with
      | cons h7 _ =>
        have k : solvePass (dSolver simp Sc) U b'.prob (some dUn) dGuess = .ok (some r') := h7.1
        rw [← e1, dPass] at k
        simpa using k.symm
  subst hr'
  obtain ⟨-, hall⟩ := hall dΓ dT dT' (by rw [← e1]; exact dDimensional U) (by
    intro l hl x hx
    simp only [List.mem_singleton] at hl
    subst hl
    simp only [List.mem_singleton] at hx
    subst hx
    rw [← e1]
    exact ⟨dφ, dSizes U, dFactored U⟩)
  have hnum := cruiseNum U 2 2
  have hread := cruiseRead U 2 2
  norm_num at hnum hread
  have hconv : s'.converged = true := by
    cases hcall with
    | cons h5 _ =>
      cases h5 with
      | cons h7 _ => exact h7.2.2.2
  cases hall with
  | cons h5 h6 =>
    cases h5 with
    | cons h7 h8 =>
      dsimp only at h7
      rw [← e1] at h7
      obtain ⟨-, -, k3⟩ := h7
      obtain ⟨t₀, c, x, lam, ν₀, ν₁, -, hext, ht', hret, -⟩ := k3 dφ 4 (dSizes U) (dFactored U) (dLargest U) hconv (by simp [dResult])
        (fun σ => σ) (dId U) (cruiseRow 2 2) (by rw [hst]; rfl) (by rw [hk]; exact hnum.rates) (cruise 2 2)
        (by rw [hk]; exact hread) (cruiseRegular U 2 2)
      obtain ⟨e3, e2⟩ := dTimes ht ht'
      rw [e2, e3, show (dConfig U O simp Sc log).solver.tol * 4 = 4 / 10 by norm_num [dConfig, dSolver, Solver.tol]] at hext
      exact ⟨s', hsolve, hconv, ht, B, x, lam, ν₀, ν₁, by simpa [exO, dConfig] using hext, hret⟩

end Beluga.E2E
