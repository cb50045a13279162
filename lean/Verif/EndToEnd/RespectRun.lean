import Verif.EndToEnd.Respect

/-!
# Concrete cases for the constraints on the path

Minimise `∫ u²` over the motion `x' = u` from `x = c` to `x = c` during the time 1, with `-1 < x < 1` on the path.  Staying at `c` solves the
generated boundary value problem for `c = 0`, where the constraint holds, and for `c = 2`, where it is violated.
-/

namespace Beluga.E2E

open Beluga.Sym Beluga.Sym.Expr Beluga.Num Beluga.Map Beluga.Opt Beluga.Rep

/-! ### Derivatives of trigonometric expressions -/

/-- The only functions are sine and cosine. -/
def trigOnly : Expr → Bool
  | num _ | .pi | sym _ => true
  | add a b | mul a b => trigOnly a && trigOnly b
  | inv a | pow a _ => trigOnly a
  | fn .sin a | fn .cos a => trigOnly a
  | fn _ _ => false

theorem smooth_diff {U : Name → Nat → ℝ → ℝ} {ρ : Env} (v : Name) : ∀ {e : Expr}, trigOnly e = true → Smooth U ρ e →
    Smooth U ρ (diff v e)
  | num _, _, _ => trivial
  | .pi, _, _ => trivial
  | sym s, _, _ => by rw [diff]; split <;> trivial
  | add a b, h, hs => by
    rw [trigOnly, Bool.and_eq_true] at h
    exact ⟨smooth_diff v h.1 hs.1, smooth_diff v h.2 hs.2⟩
  | mul a b, h, hs => by
    rw [trigOnly, Bool.and_eq_true] at h
    exact ⟨⟨smooth_diff v h.1 hs.1, hs.2⟩, hs.1, smooth_diff v h.2 hs.2⟩
  | inv a, h, hs => by
    rw [trigOnly] at h
    exact ⟨trivial, smooth_diff v h hs.1, hs⟩
  | pow a n, h, hs => by
    rw [trigOnly] at h
    exact ⟨⟨trivial, hs⟩, smooth_diff v h hs⟩
  | fn .sin a, h, hs => ⟨⟨hs.1, trivial⟩, smooth_diff v h hs.1⟩
  | fn .cos a, h, hs => ⟨⟨trivial, hs.1, trivial⟩, smooth_diff v h hs.1⟩

/-! ### The problem -/

def feP : Prob := {
  ind := "t"
  states := [⟨"x", sym "u"⟩]
  controls := ["u"]
  constants := ["eps", "c"]
  costPath := sym "u" * sym "u"
  initial := [{ expr := sym "x" - sym "c" }, { expr := sym "t" }]
  path := [{ expr := sym "x", lower := some (num (-1)), upper := some 1, activator := some (sym "eps"), method := .utm }]
  terminal := [{ expr := sym "x" - sym "c" }, { expr := sym "t" - 1 }] }

def feH : Expr := hamiltonianOf (sym "u" * sym "u" + utmTerm (sym "eps") (sym "x") (num (-1)) 1) [⟨"x", sym "u"⟩, ⟨"t", 1⟩]

/-- A solver that knows one equation. -/
def feS : Sympy where
  solve eqs syms := if eqs = [feH].map (Expr.diff "u") ∧ syms = ["u"] then [[("u", -(sym "_lam_x") / 2)]] else []
  lu := cramerLu
  integrate _ _ := 0

def feP' : Prob := match indirect feS exO feP with
  | .ok p => p
  | .error _ => {}

theorem feP'_ok : indirect feS exO feP = .ok feP' := by
  have : (match indirect feS exO feP with | .ok _ => true | .error _ => false) = true := by decide +kernel
  rw [feP']
  cases h : indirect feS exO feP with
  | ok p => rfl
  | error e => rw [h] at this; cases this

theorem feP_stated : Stated feP where
  costates := rfl
  coparameters := rfl
  parameters := rfl
  quads := rfl
  law := rfl
  acyclic := ⟨fun _ => 0, by decide⟩
  reg := ⟨rfl, by decide, by decide, by decide, by simp [feP], by decide, by decide⟩
  inside := by decide
  ends := by decide
  bounds := by simp [feP]
  flat := by simp [feP]
  names := by decide
  trig := by decide +kernel
  plain := by decide +kernel
  free := by decide +kernel
  ind := by decide +kernel

theorem feS_sound : SolveSound feS := by
  intro U eqs syms sol hs σ hσ e he
  simp only [feS] at hs
  split at hs
  · next hc =>
    obtain ⟨rfl, rfl⟩ := hc
    simp only [List.mem_singleton] at hs
    subst hs
    obtain ⟨e', h1, -, h3⟩ := hσ "u" (by simp)
    cases h1
    simp only [List.map_cons, List.map_nil, List.mem_singleton] at he
    subst he
    have h0 : eval (real U) σ (diff "u" (utmTerm (sym "eps") (sym "x") (num (-1)) 1)) = 0 :=
      eval_diff_of_not_mem _ _ (by decide)
    rw [feH]
    generalize utmTerm (sym "eps") (sym "x") (num (-1)) 1 = w at h0 ⊢
    simp [hamiltonianOf, diff, eval, lamName, h0] at h3 ⊢
    rw [h3]
    ring
  · cases hs

/-- The problem before dualisation. -/
def feq : Prob := match primal feS feP with
  | .ok p => p
  | .error _ => {}

theorem feq_ok : primal feS feP = .ok feq := by
  have : (match primal feS feP with | .ok _ => true | .error _ => false) = true := by decide +kernel
  rw [feq]
  cases h : primal feS feP with
  | ok p => rfl
  | error e => rw [h] at this; cases this

theorem feq_states : feq.states = [⟨"x", sym "u"⟩, ⟨"t", 1⟩] := by decide +kernel
theorem feq_costs : feq.costInitial = 0 ∧ feq.costPath = sym "u" * sym "u" + utmTerm (sym "eps") (sym "x") (num (-1)) 1 ∧
    feq.costTerminal = 0 := by decide +kernel
theorem feq_initial : feq.initial = [{ expr := sym "x" - sym "c" }, { expr := sym "t" }] := by decide +kernel
theorem feq_terminal : feq.terminal = [{ expr := sym "x" - sym "c" }, { expr := sym "t" - 1 }] := by decide +kernel
theorem feh : hexpr feq = sym "u" * sym "u" + utmTerm (sym "eps") (sym "x") (num (-1)) 1 + sym "_lam_x" * sym "u" + sym "_lam_t" * 1 := by
  decide +kernel
theorem fephi0 : phi0 feq = 0 + sym "_nu_0_0" * (sym "x" - sym "c") + sym "_nu_0_1" * sym "t" := by decide +kernel
theorem fephif : phif feq = 0 + sym "_nu_f_0" * (sym "x" - sym "c") + sym "_nu_f_1" * (sym "t" - 1) := by decide +kernel

theorem feP'_states : feP'.states = [⟨"x", sym "u" * sym "_delta_t"⟩, ⟨"t", 1 * sym "_delta_t"⟩,
    ⟨"_lam_x", -((hexpr feq).diff "x") * sym "_delta_t"⟩, ⟨"_lam_t", -((hexpr feq).diff "t") * sym "_delta_t"⟩] := by
  decide +kernel
theorem feP'_initial : feP'.initial.map Con.expr = [sym "x" - sym "c", sym "t", sym "_lam_x" + (phi0 feq).diff "x",
    sym "_lam_t" + (phi0 feq).diff "t"] := by decide +kernel
theorem feP'_terminal : feP'.terminal.map Con.expr = [sym "x" - sym "c", sym "t" - 1, sym "_lam_x" - (phif feq).diff "x",
    sym "_lam_t" - (phif feq).diff "t", (phif feq).diff "_t" + hexpr feq] := by decide +kernel
theorem feP'_rest : feP'.controls = ["u"] ∧ feP'.controlLaw = [[-(sym "_lam_x") / 2]] ∧ feP'.quads = [] ∧
    feP'.ind = "_tau" ∧ feP'.omega = none := by decide +kernel
theorem feP'_names : feP'.parameters = ["_delta_t"] ∧ feP'.constraintParams = ["_nu_0_0", "_nu_0_1", "_nu_f_0", "_nu_f_1"] ∧
    feP'.constants = ["eps", "c"] ∧ sts feP' = ["x", "t", "_lam_x", "_lam_t"] := by decide +kernel

/-! ### Staying at `c` -/

/-- The argument of the penalty. -/
noncomputable def feAngle (c : ℝ) : ℝ := Real.pi / 2 * (2 * c - 1 - (-1)) / (1 - (-1))

/-- The penalty is flat at `c`, with the value `-l`. -/
structure Flat (c l : ℝ) : Prop where
  sin : Real.sin (feAngle c) = 0
  cos : Real.cos (feAngle c) ≠ 0
  value : (Real.cos (feAngle c))⁻¹ - 1 + l = 0

theorem flat_inside : Flat 0 0 := by
  have e : feAngle 0 = 0 := by rw [feAngle]; ring
  constructor <;> simp [e]

theorem flat_outside : Flat 2 2 := by
  have e : feAngle 2 = Real.pi := by rw [feAngle]; ring
  constructor <;> simp [e]
  norm_num

noncomputable def stayAt (c l τ : ℝ) (s : Name) : ℝ :=
  if s = "t" ∨ s = "_tau" then τ else if s = "x" ∨ s = "c" then c else if s = "eps" ∨ s = "_delta_t" then 1
  else if s = "_lam_t" ∨ s = "_nu_f_1" then l else if s = "_nu_0_1" then -l else 0

theorem stay_fixed (c l : ℝ) {s : Name} (h1 : s ≠ "t") (h2 : s ≠ "_tau") (τ τ' : ℝ) : stayAt c l τ s = stayAt c l τ' s := by
  simp [stayAt, h1, h2]

theorem stay_moves (c l : ℝ) {s : Name} (h1 : s ≠ "t") (h2 : s ≠ "_tau") : Moves 0 1 (stayAt c l) 0 s := by
  intro t _
  have e : (fun τ => stayAt c l τ s) = fun _ => stayAt c l 0 s := funext fun τ => stay_fixed c l h1 h2 τ 0
  rw [e]
  exact hasDerivAt_const _ _

theorem angle_val (U : Name → Nat → ℝ → ℝ) (c l τ : ℝ) :
    eval (real U) (stayAt c l τ) (Expr.pi / 2 * (2 * sym "x" - 1 - num (-1)) / (1 - num (-1))) = feAngle c := by
  have : stayAt c l τ "x" = c := by simp [stayAt]
  have e2 : eval (real U) (stayAt c l τ) Expr.pi = Real.pi := rfl
  simp only [eval_div, eval_sub, eval_mul, e2, eval_one, eval_two]
  simp only [eval, this, feAngle]
  norm_num

theorem utm_flat (U : Name → Nat → ℝ → ℝ) {c l : ℝ} (h : Flat c l) (τ : ℝ) (v : Name) :
    eval (real U) (stayAt c l τ) (diff v (1 / fn .cos (Expr.pi / 2 * (2 * sym "x" - 1 - num (-1)) / (1 - num (-1))) - 1)) = 0 := by
  have h0 := angle_val U c l τ
  generalize Expr.pi / 2 * (2 * sym "x" - 1 - num (-1)) / (1 - num (-1)) = e at h0 ⊢
  have h1 : eval (real U) (stayAt c l τ) (dfn .cos e) = 0 := by
    rw [dfn, eval_neg]
    change -Real.sin (eval (real U) (stayAt c l τ) e) = 0
    rw [h0, h.sin, neg_zero]
  change eval (real U) (stayAt c l τ) (add (add (mul (num 0) (inv (fn .cos e)))
    (mul (num 1) (mul (num (-1)) (mul (mul (dfn .cos e) (diff v e)) (pow (inv (fn .cos e)) 2)))))
    (add (mul (num 0) (num 1)) (mul (num (-1)) (num 0)))) = 0
  simp [eval, h1]

theorem utm_value (U : Name → Nat → ℝ → ℝ) {c l : ℝ} (h : Flat c l) (τ : ℝ) :
    eval (real U) (stayAt c l τ) (1 / fn .cos (Expr.pi / 2 * (2 * sym "x" - 1 - num (-1)) / (1 - num (-1))) - 1) = -l := by
  have h0 := angle_val U c l τ
  generalize Expr.pi / 2 * (2 * sym "x" - 1 - num (-1)) / (1 - num (-1)) = e at h0 ⊢
  have h1 : eval (real U) (stayAt c l τ) (fn .cos e) = Real.cos (feAngle c) := by
    rw [← h0]
    rfl
  have := h.value
  rw [eval_sub, eval_div, h1, eval_one, one_div]
  linarith

theorem staySolves (U : Name → Nat → ℝ → ℝ) {c l : ℝ} (hf : Flat c l) : Solves U feP' 0 1 (stayAt c l) where
  follows := by
    intro t ht d hd
    rw [feP'_states, feh] at hd
    simp only [List.mem_cons, List.not_mem_nil, or_false] at hd
    rcases hd with rfl | rfl | rfl | rfl
    · refine (stay_moves c l (s := "x") (by decide) (by decide) t ht).congr_deriv ?_
      simp [eval, stayAt]
    · have e : (fun τ => stayAt c l τ "t") = id := funext fun τ => by simp [stayAt]
      change HasDerivAt (fun τ => stayAt c l τ "t") _ t
      rw [e]
      refine (hasDerivAt_id t).congr_deriv ?_
      simp [eval, stayAt]
    · refine (stay_moves c l (s := "_lam_x") (by decide) (by decide) t ht).congr_deriv ?_
      have := utm_flat U hf t "x"
      simp [eval, diff, utmTerm, this]
    · refine (stay_moves c l (s := "_lam_t") (by decide) (by decide) t ht).congr_deriv ?_
      have := utm_flat U hf t "t"
      simp [eval, diff, utmTerm, this]
  fixed := by
    intro s h1 h2 h3 h4
    rw [feP'_states] at h1
    rw [feP'_rest.2.2.2.1] at h4
    simp only [List.map_cons, List.mem_cons, not_or] at h1
    exact stay_moves c l h1.2.1 h4
  law := by
    intro _ t _
    rw [feP'_rest.1, feP'_rest.2.1]
    refine ⟨_, List.mem_singleton_self _, ?_⟩
    simp [eval, stayAt]
  initial := by
    intro d hd
    have : d.expr ∈ feP'.initial.map Con.expr := List.mem_map.2 ⟨d, hd, rfl⟩
    rw [feP'_initial, fephi0] at this
    simp only [List.mem_cons, List.not_mem_nil, or_false] at this
    rcases this with h | h | h | h <;> rw [h] <;> simp [eval, diff, stayAt]
  terminal := by
    intro d hd
    have : d.expr ∈ feP'.terminal.map Con.expr := List.mem_map.2 ⟨d, hd, rfl⟩
    rw [feP'_terminal, fephif, feh] at this
    simp only [List.mem_cons, List.not_mem_nil, or_false] at this
    have hv := utm_value U hf 1
    rcases this with h | h | h | h | h <;> rw [h]
    · simp [eval, stayAt]
    · simp [eval, stayAt]
    · simp [eval, diff, diff_sub', stayAt]
    · simp [eval, diff, diff_sub', stayAt]
    · simp only [utmTerm, eval_add, eval_mul, hv]
      simp [eval, diff, diff_sub', stayAt]

theorem stayReads (U : Name → Nat → ℝ → ℝ) (c l : ℝ) :
    Reads U feP' 0 1 (fun τ => [c, τ, 0, l]) [1] [0, -l, 0, l] [1, c] (stayAt c l) := by
  obtain ⟨n1, n2, n3, n4⟩ := feP'_names
  obtain ⟨r1, r2, r3, r4, -⟩ := feP'_rest
  refine ⟨?_, ?_, ?_, ?_, ?_, ?_⟩
  · intro t
    rw [n4]
    simp [stayAt]
  · intro t _ u hu
    obtain ⟨opt, ho, rfl⟩ := computeU_some (σ := stayAt c l t) (by rw [n4]; simp [stayAt]) (by rw [n1]; simp [stayAt])
      (by rw [n3]; simp [stayAt]) hu
    rw [r2, List.mem_singleton] at ho
    subst ho
    rw [r1]
    simp [stayAt, eval]
  · intro t
    rw [n1]
    simp [stayAt]
  · intro t
    rw [n2]
    simp [stayAt]
  · intro t
    rw [n3]
    simp [stayAt]
  · intro s m1 m2 m3 t t'
    rw [n4] at m1
    rw [r4] at m3
    simp only [List.mem_cons, not_or] at m1
    exact stay_fixed c l m1.2.1 m3 t t'

theorem stayNum (U : Name → Nat → ℝ → ℝ) {c l : ℝ} (hf : Flat c l) : NumSol U feP' 0 1 (fun τ => [c, τ, 0, l]) [1] [0, -l, 0, l] [1, c] := by
  refine numSol_of_solves (stayReads U c l) (by norm_num) feP'_rest.2.2.1 (staySolves U hf) ?_ ?_
  · intro t _
    refine ok_of ?_
    rfl
  · refine ok_of ?_
    rfl

theorem stay_smooth (U : Name → Nat → ℝ → ℝ) {c l : ℝ} (hf : Flat c l) (τ : ℝ) :
    Smooth U (stayAt c l τ) (utmTerm (sym "eps") (sym "x") (num (-1)) 1) := by
  refine ⟨trivial, smooth_sub ⟨trivial, ⟨⟨⟨⟨trivial, trivial, ?_⟩, smooth_sub (smooth_sub ⟨trivial, trivial⟩ trivial) trivial⟩,
    smooth_sub trivial trivial, ?_⟩, trivial⟩, ?_⟩ trivial⟩
  · simp [eval]
  · simp [eval]
  · have : eval (real U) (stayAt c l τ) (fn .cos (Expr.pi / 2 * (2 * sym "x" - 1 - num (-1)) / (1 - num (-1)))) = Real.cos (feAngle c) := by
      rw [← angle_val U c l τ]
      rfl
    rw [this]
    exact hf.cos

theorem stayRegular (U : Name → Nat → ℝ → ℝ) {c l : ℝ} (hf : Flat c l) : Regular feS U feq feP' 0 1 (stayAt c l) := by
  have hH : ∀ t, Smooth U (stayAt c l t) (hexpr feq) := by
    intro t
    rw [feh]
    exact ⟨⟨⟨⟨trivial, trivial⟩, stay_smooth U hf t⟩, trivial, trivial⟩, trivial, trivial⟩
  have hT : trigOnly (hexpr feq) = true := by decide +kernel
  have hends : ∀ t, SmoothEnds feq U (stayAt c l t) := by
    intro t
    rw [SmoothEnds, feq_costs.1, feq_costs.2.2, feq_initial, feq_terminal]
    refine ⟨trivial, trivial, ?_⟩
    intro d hd
    simp only [List.mem_append, List.mem_cons, List.not_mem_nil, or_false] at hd
    rcases hd with (rfl | rfl) | rfl | rfl
    · exact smooth_sub trivial trivial
    · trivial
    · exact smooth_sub trivial trivial
    · exact smooth_sub trivial trivial
  refine ⟨?_, (hends 0).start, (hends 1).stop, ?_, ?_, ?_, ?_, ?_⟩
  · intro t _
    rw [SmoothRates, feq_costs.2.1, feq_states]
    refine ⟨⟨⟨trivial, trivial⟩, stay_smooth U hf t⟩, ?_⟩
    intro s hs
    simp only [List.mem_cons, List.not_mem_nil, or_false] at hs
    rcases hs with rfl | rfl <;> trivial
  · exact fun t _ u _ => smooth_diff u hT (hH t)
  · intro t _ d hd
    rw [feP'_states] at hd
    simp only [List.mem_cons, List.not_mem_nil, or_false] at hd
    have hD : ∀ v, Defined (real U) (stayAt c l t) (-((hexpr feq).diff v) * sym "_delta_t") :=
      fun v => ⟨⟨trivial, defined_of_smooth (smooth_diff v hT (hH t))⟩, trivial⟩
    rcases hd with rfl | rfl | rfl | rfl
    · exact ⟨trivial, trivial⟩
    · exact ⟨trivial, trivial⟩
    · exact hD _
    · exact hD _
  · intro t _ opt ho e he
    rw [feP'_rest.2.1, List.mem_singleton] at ho
    subst ho
    rw [List.mem_singleton] at he
    subst he
    refine ⟨⟨trivial, trivial⟩, trivial, ?_⟩
    simp [eval]
  · intro t ht u hu
    rw [feP'_rest.1, List.mem_singleton] at hu
    subst hu
    exact (stay_moves c l (by decide) (by decide) t ht).differentiableAt
  · intro om ho
    rw [feP'_rest.2.2.2.2] at ho
    cases ho

theorem fe_completes (U : Name → Nat → ℝ → ℝ) : Completes U feP id where
  off := fun _ _ _ => rfl
  quantities := by simp [feP]
  switches := by simp [feP]
  trig := by simp [TrigEnv, feP]

/-- Samples of the solution. -/
noncomputable def staySol (c l : ℝ) : Sol ℝ where
  t := exGrid
  dualT := []
  y := .rows 4 (exGrid.map fun τ => [c, τ, 0, l])
  dual := .empty
  q := .empty
  u := .empty
  dualU := .empty
  dyn := [1]
  nondyn := [0, -l, 0, l]
  const := [1, c]
  cost := none
  converged := true

/-- What comes back, for either value of `c`. -/
theorem stayReturned (U : Name → Nat → ℝ → ℝ) (O : TrigOps ℝ) (hO : O.sin = Real.sin) {c l : ℝ} (hf : Flat c l) :
    ∃ s' B lam ν₀ ν₁, invIndirect feS O trapezoids (real U) exO feP (staySol c l) = .ok s' ∧ s'.t = [0, 1 / 2, 1] ∧
      s'.y = .rows 1 [[c], [c], [c]] ∧ s'.converged = true ∧ Barriers B ∧ Returned id feP (stayAt c l) lam s' ∧
      Extremal (userOcp U id B feP) 0 1 (stayAt c l) lam ν₀ ν₁ ∧
      (Fenced U id feP 0 1 (stayAt c l) → ∀ t₁ ∈ Set.Icc (0 : ℝ) 1, PathHolds U id feP (stayAt c l) t₁ →
        ∀ t ∈ Set.Icc (0 : ℝ) 1, PathHolds U id feP (stayAt c l) t) := by
  obtain ⟨s', hs'⟩ : ∃ s', invIndirect feS O trapezoids (real U) exO feP (staySol c l) = .ok s' := by
    refine ok_of ?_
    rfl
  have hfact : s'.t = [0, 1 / 2, 1] ∧ s'.y = .rows 1 [[c], [c], [c]] ∧ s'.converged = true := by
    have hs' := hs'
    cases hs'
    exact ⟨rfl, rfl, rfl⟩
  obtain ⟨q, B, hq, hB, key⟩ := C86_respected_partial (luSound_cramer feS rfl) feP_stated (o := exO) rfl (by decide)
    (fun _ => feS_sound) feP'_ok
  rw [feq_ok] at hq
  cases hq
  obtain ⟨t₀, d, x, lam, ν₀, ν₁, hd, hext, ht, hret, hdr, hmin⟩ := key U id (fe_completes U) O trapezoids hO 0 1 _ _ _ _ _ (by norm_num)
    (stayNum U hf) (stayReads U c l) (stayRegular U hf) (by simp) (staySol c l) s' (by simp [staySol, exGrid])
    (by simp only [staySol, exGrid]; intro τ hτ; simp at hτ; rcases hτ with rfl | rfl | rfl <;> norm_num) rfl rfl rfl hs'
  have ht0 : t₀ = 0 ∧ d = 1 := by
    rw [hfact.1, show (staySol c l).t = [0, 1 / 2, 1] from rfl] at ht
    simp at ht
    exact ⟨ht.1.symm, by linarith [ht.1, ht.2.2]⟩
  obtain ⟨rfl, rfl⟩ := ht0
  have hx : x = stayAt c l := by
    funext t
    rw [hdr.curve]
    norm_num
  subst hx
  have e : (0 : ℝ) + 1 * (1 - 0) = 1 := by norm_num
  rw [e] at hext hmin
  exact ⟨s', B, lam, ν₀, ν₁, hs', hfact.1, hfact.2.1, hfact.2.2, hB, hret, hext, hmin⟩

theorem stayFenced (U : Name → Nat → ℝ → ℝ) (c l : ℝ) : Fenced U id feP 0 1 (stayAt c l) where
  cost := by
    simp [feP, eval, stayAt]
    exact continuousOn_const
  bounds := by
    intro d hd _
    simp only [feP, List.mem_singleton] at hd
    subst hd
    refine ⟨fun _ => ?_, ⟨_, rfl, ?_, ?_⟩, _, _, rfl, rfl, ?_, ?_, ?_⟩
    · simp [eval, stayAt]
      exact continuousOn_const
    · simp [eval, stayAt]
      exact continuousOn_const
    · simp [eval, stayAt]
    · simp [eval]
      exact continuousOn_const
    · simp [eval]
      exact continuousOn_const
    · simp [eval]

theorem stay_holds (U : Name → Nat → ℝ → ℝ) (c l t : ℝ) : PathHolds U id feP (stayAt c l) t ↔ -1 < c ∧ c < 1 := by
  have hx : stayAt c l t "x" = c := by simp [stayAt]
  simp [PathHolds, HoldsAt, feP, Con.twoSided, eval, hx]
  exact fun h1 h2 => ⟨h1.le, h2.le⟩

/-- The bounds may move: here they follow the time. -/
example (U : Name → Nat → ℝ → ℝ) : Fenced U id { feP with path := [⟨sym "x", some (sym "t" - 2), some (sym "t" + 1), some (sym "eps"), .utm⟩] }
    0 1 (stayAt 0 0) where
  cost := (stayFenced U 0 0).cost
  bounds := by
    intro d hd _
    simp only [List.mem_singleton] at hd
    subst hd
    refine ⟨fun _ => ?_, ⟨_, rfl, ?_, ?_⟩, _, _, rfl, rfl, ?_, ?_, ?_⟩
    · simp [eval, stayAt]
      exact continuousOn_const
    · simp [eval, stayAt]
      exact continuousOn_const
    · simp [eval, stayAt]
    · simp [eval, stayAt]
      fun_prop
    · simp [eval, stayAt]
      fun_prop
    · simp [eval, stayAt]
      intros; linarith

/-- For `c = 0` the tables come out, the assumptions of the property hold, and so does the constraint. -/
example (U : Name → Nat → ℝ → ℝ) (O : TrigOps ℝ) (hO : O.sin = Real.sin) :
    ∃ s' lam, invIndirect feS O trapezoids (real U) exO feP (staySol 0 0) = .ok s' ∧ s'.y = .rows 1 [[0], [0], [0]] ∧
      Returned id feP (stayAt 0 0) lam s' ∧ Fenced U id feP 0 1 (stayAt 0 0) ∧ PathHolds U id feP (stayAt 0 0) 0 ∧
      ∀ t ∈ Set.Icc (0 : ℝ) 1, PathHolds U id feP (stayAt 0 0) t := by
  obtain ⟨s', B, lam, ν₀, ν₁, h1, -, h2, -, -, h3, -, h4⟩ := stayReturned U O hO flat_inside
  have h0 : PathHolds U id feP (stayAt 0 0) 0 := by rw [stay_holds]; norm_num
  exact ⟨s', lam, h1, h2, h3, stayFenced U 0 0, h0, h4 (stayFenced U 0 0) 0 (by simp) h0⟩

/-- That a solution satisfies the constraints at all is not guaranteed, and the flag does not tell: the problem is to stay at `x = 2` with
`-1 < x < 1` on the path, which no trajectory does; but staying at 2 is an exact solution of the generated boundary value problem, and
what the user gets back is flagged as converged, consists of samples of an extremal, and violates the constraint at all times.  The
penalty there is negative. -/
theorem C86_violated (U : Name → Nat → ℝ → ℝ) (O : TrigOps ℝ) (hO : O.sin = Real.sin) :
    Stated feP ∧ indirect feS exO feP = .ok feP' ∧
    NumSol U feP' 0 1 (fun τ => [2, τ, 0, 2]) [1] [0, -2, 0, 2] [1, 2] ∧
    Regular feS U feq feP' 0 1 (stayAt 2 2) ∧
    ∃ s' B lam ν₀ ν₁, invIndirect feS O trapezoids (real U) exO feP (staySol 2 2) = .ok s' ∧ s'.y = .rows 1 [[2], [2], [2]] ∧
      s'.converged = true ∧ Barriers B ∧ Returned id feP (stayAt 2 2) lam s' ∧
      Extremal (userOcp U id B feP) 0 1 (stayAt 2 2) lam ν₀ ν₁ ∧
      (∀ t, ¬ PathHolds U id feP (stayAt 2 2) t) ∧ (∀ t, (userOcp U id B feP).path (stayAt 2 2 t) = -2) ∧
      ∀ z, Admissible (userOcp U id B feP) 0 1 (stayAt 2 2) z → ¬ PathHolds U id feP z 0 := by
  obtain ⟨s', B, lam, ν₀, ν₁, h1, -, h2, h3, hB, h4, h5, -⟩ := stayReturned U O hO flat_outside
  refine ⟨feP_stated, feP'_ok, stayNum U flat_outside, stayRegular U flat_outside, s', B, lam, ν₀, ν₁, h1, h2, h3, hB, h4, h5, ?_, ?_, ?_⟩
  · intro t
    rw [stay_holds]
    norm_num
  · intro t
    rw [path_cost feP_stated feq_ok hB (fe_completes U), feq_costs.2.1]
    have hv := utm_value U flat_outside t
    simp only [utmTerm, eval_add, eval_mul, hv]
    simp [eval, stayAt]
  · intro z hz hp
    have hc : z 0 "c" = 2 := by
      rw [hz.others 0 (by simp) "c" (by simp [Ocp.states, userOcp, feP, epsControls])]
      simp [stayAt]
    have hi := hz.initial (fun σ => eval (real U) (id σ) (sym "x" - sym "c")) (by simp [userOcp, feP, Con.twoSided])
    simp [eval, hc] at hi
    simp [PathHolds, HoldsAt, feP, Con.twoSided, eval] at hp
    linarith [hp.2]

end Beluga.E2E
