import Mathlib.Tactic.IntervalCases
import Verif.Extremal.Converse

/-! # A problem solved with the method 'diffyg' and differential control (C64, C71) -/

namespace Beluga.Opt

open Beluga.Sym Beluga.Sym.Expr

/-- `min ∫ u² - 2 t u` with `x' = u` from `x(0) = 0` to `x(1) = 1/2`. -/
def dP : Prob := {
  ind := "t"
  states := [⟨"x", sym "u"⟩]
  controls := ["u"]
  costPath := sym "u" * sym "u" + num (-2) * sym "t" * sym "u"
  initial := [{ expr := sym "x" }, { expr := sym "t" }]
  terminal := [{ expr := 2 * sym "x" - 1 }, { expr := sym "t" - 1 }] }

def dH : Expr := hamiltonianOf (sym "u" * sym "u" + num (-2) * sym "t" * sym "u") [⟨"x", sym "u"⟩, ⟨"t", 1⟩]

/-- The rates by the canonical form. -/
def dX1 : List Expr := [-sym "u", num (-1), 0, -(2 * sym "u")]

/-- The rates by the form with the controls. -/
def dX3 : List Expr := [-sym "u", num (-1), num (-1), 0, sym "_lam_x" - 2 * sym "t", dH.diff "u"]

/-- The linear systems that the solver knows: the rates by the canonical form, the symmetry in time, the rates of the controls,
the rates by the form with the controls. -/
def dTable : List (List (List Expr) × List Expr × List Expr) :=
  [(standardForm 2, ["x", "t", "_lam_x", "_lam_t"].map (fun s => dH.diff s), dX1),
    (standardForm 2, [0, 1, 0, 0], [0, 0, 0, 1]),
    (ctlMatrix dH ["u"], ctlRhs dH ["u"] [⟨"x", sym "u"⟩, ⟨"t", 1⟩, ⟨"_lam_x", -0⟩, ⟨"_lam_t", -(-(2 * sym "u"))⟩], [1]),
    (controlForm 3 1 1 [1], ["x", "t", "u", "_lam_x", "_lam_t", "_lam_u"].map (fun s => dH.diff s), dX3)]

def dS : Sympy where
  solve _ _ := []
  lu M b := match dTable.find? fun r => r.1 = M ∧ r.2.1 = b with
    | some r => .ok r.2.2
    | none => .error .valueError
  integrate _ _ := 0

theorem dS_sound : LuSound dS := by
  have key : ∀ M b x, dS.lu M b = .ok x → (M, b, x) ∈ dTable := by
    intro M b x h
    simp only [dS] at h
    split at h
    · next r hr =>
      have h1 := List.find?_some hr
      have h2 := List.mem_of_find?_eq_some hr
      simp only [decide_eq_true_eq] at h1
      obtain ⟨rfl, rfl⟩ := h1
      cases h
      exact h2
    · cases h
  constructor
  · intro M b x h
    have := key M b x h
    revert this
    simp only [dTable, List.mem_cons, List.not_mem_nil, or_false, Prod.mk.injEq]
    rintro (⟨rfl, rfl, rfl⟩ | ⟨rfl, rfl, rfl⟩ | ⟨rfl, rfl, rfl⟩ | ⟨rfl, rfl, rfl⟩) <;> rfl
  · intro M b x h K _ I ρ i hi _
    have := key M b x h
    revert this
    simp only [dTable, List.mem_cons, List.not_mem_nil, or_false, Prod.mk.injEq]
    rintro (⟨rfl, rfl, rfl⟩ | ⟨rfl, rfl, rfl⟩ | ⟨rfl, rfl, rfl⟩ | ⟨rfl, rfl, rfl⟩)
    · have hl : (standardForm 2).length = 4 := rfl
      rw [hl] at hi ⊢
      interval_cases i <;>
        simp [Finset.sum_range_succ, entry, standardForm, dX1, dH, hamiltonianOf, lamName, eval, diff]
    · have hl : (standardForm 2).length = 4 := rfl
      rw [hl] at hi ⊢
      interval_cases i <;> simp [Finset.sum_range_succ, entry, standardForm, eval]
    · have hl : (ctlMatrix dH ["u"]).length = 1 := rfl
      rw [hl] at hi ⊢
      interval_cases i
      simp [Finset.sum_range_succ, entry, ctlMatrix, ctlRhs, gOf, negDot, dH, hamiltonianOf, lamName, eval, diff]
      try ring
    · have hl : (controlForm 3 1 1 [1]).length = 6 := rfl
      rw [hl] at hi ⊢
      interval_cases i <;>
        simp [Finset.sum_range_succ, entry, controlForm, dX3, dH, hamiltonianOf, lamName, eval, diff] <;> ring

def dO : Opts := { controlMethod := .differential, method := .diffyg }

def dP' : Prob := match indirect dS dO dP with
  | .ok p => p
  | .error _ => {}

theorem dP'_ok : indirect dS dO dP = .ok dP' := by
  have : (match indirect dS dO dP with | .ok _ => true | .error _ => false) = true := by decide +kernel
  rw [dP']
  cases h : indirect dS dO dP with
  | ok p => rfl
  | error e => rw [h] at this; cases this

theorem dP_stated : Stated dP where
  costates := rfl
  coparameters := rfl
  parameters := rfl
  quads := rfl
  law := rfl
  acyclic := ⟨fun _ => 0, by decide⟩
  reg := ⟨rfl, by decide, by decide, by decide, by simp [dP], by decide, by decide⟩
  inside := by decide
  ends := by decide
  bounds := by simp [dP]
  flat := by simp [dP]
  names := by decide
  trig := by decide +kernel
  plain := by decide +kernel
  free := by decide +kernel
  ind := by decide +kernel

/-- The problem before dualisation. -/
def dq : Prob := match primal dS dP with
  | .ok p => p
  | .error _ => {}

theorem dq_ok : primal dS dP = .ok dq := by
  have : (match primal dS dP with | .ok _ => true | .error _ => false) = true := by decide +kernel
  rw [dq]
  cases h : primal dS dP with
  | ok p => rfl
  | error e => rw [h] at this; cases this

def dqd : Prob := match dualize dS .diffyg dq with
  | .ok p => p
  | .error _ => {}

theorem dq_rest : dq.states = [⟨"x", sym "u"⟩, ⟨"t", 1⟩] ∧ dq.costPath = sym "u" * sym "u" + num (-2) * sym "t" * sym "u" ∧
    dq.costInitial = 0 ∧ dq.costTerminal = 0 ∧ dq.initial.map Con.expr = [sym "x", sym "t"] ∧
    dq.terminal.map Con.expr = [2 * sym "x" - 1, sym "t" - 1] ∧ dq.controls = ["u"] ∧ hexpr dq = dH := by decide +kernel

theorem dq_dual : dualize dS .diffyg dq = .ok dqd ∧
    dqd.costates = [⟨"_lam_x", -0⟩, ⟨"_lam_t", -(-(2 * sym "u"))⟩] := by
  have : (match dualize dS .diffyg dq with | .ok _ => true | .error _ => false) = true := by decide +kernel
  refine ⟨?_, by decide +kernel⟩
  rw [dqd]
  cases h : dualize dS .diffyg dq with
  | ok p => rfl
  | error e => rw [h] at this; cases this

theorem dP'_states : dP'.states = [⟨"x", -(-sym "u") * sym "_delta_t"⟩, ⟨"t", -(num (-1)) * sym "_delta_t"⟩,
    ⟨"u", -(num (-1)) * sym "_delta_t"⟩, ⟨"_lam_x", -0 * sym "_delta_t"⟩,
    ⟨"_lam_t", -(sym "_lam_x" - 2 * sym "t") * sym "_delta_t"⟩, ⟨"_lam_u", -(dH.diff "u") * sym "_delta_t"⟩] := by
  decide +kernel
theorem dP'_initial : dP'.initial.map Con.expr = [sym "x", sym "t", sym "_lam_x" + (phi0 dq).diff "x",
    sym "_lam_t" + (phi0 dq).diff "t", sym "_lam_u"] := by decide +kernel
theorem dP'_terminal : dP'.terminal.map Con.expr = [2 * sym "x" - 1, sym "t" - 1, sym "_lam_x" - (phif dq).diff "x",
    sym "_lam_t" - (phif dq).diff "t", (phif dq).diff "_t" + dH, dH.diff "u"] := by decide +kernel
theorem dP'_rest : dP'.controls = [] ∧ dP'.controlLaw = [] ∧ dP'.quads = [] ∧ dP'.ind = "_tau" ∧
    dP'.omega = some (controlForm 3 1 1 [1]) := by decide +kernel

theorem dphi0 : phi0 dq = 0 + sym "_nu_0_0" * sym "x" + sym "_nu_0_1" * sym "t" := by decide +kernel
theorem dphif : phif dq = 0 + sym "_nu_f_0" * (2 * sym "x" + num (-1) * 1) + sym "_nu_f_1" * (sym "t" + num (-1) * 1) := by
  decide +kernel

/-- The solution: `u = t`, `x = t² / 2`, the costate of time `t²`. -/
noncomputable def dCurve (τ : ℝ) (s : Name) : ℝ :=
  if s = "t" ∨ s = "u" ∨ s = "_tau" then τ else if s = "x" then τ ^ 2 / 2 else if s = "_lam_t" then τ ^ 2
  else if s = "_delta_t" ∨ s = "_nu_f_1" then 1 else 0

theorem dCurve_const (s : Name) (h : s ≠ "t") (h1 : s ≠ "u") (h2 : s ≠ "_tau") (h3 : s ≠ "x") (h4 : s ≠ "_lam_t") :
    Moves 0 1 dCurve 0 s := by
  intro t _
  have : (fun τ => dCurve τ s) = fun _ => dCurve 0 s := by
    funext τ
    simp [dCurve, h, h1, h2, h3, h4]
  rw [this]
  exact hasDerivAt_const _ _

theorem dCurve_id (s : Name) (h : s = "t" ∨ s = "u" ∨ s = "_tau") : Moves 0 1 dCurve 1 s := by
  intro t _
  have : (fun τ => dCurve τ s) = fun τ => τ := by
    funext τ
    simp [dCurve, h]
  rw [this]
  exact hasDerivAt_id _

theorem dSolves (U : Name → Nat → ℝ → ℝ) : Solves U dP' 0 1 dCurve where
  follows := by
    intro t ht d hd
    rw [dP'_states] at hd
    simp only [List.mem_cons, List.not_mem_nil, or_false] at hd
    rcases hd with rfl | rfl | rfl | rfl | rfl | rfl
    · have : HasDerivAt (fun τ : ℝ => τ ^ 2 / 2) t t := by
        have := (hasDerivAt_pow 2 t).div_const 2
        simpa using this
      simpa [eval, dCurve] using this
    · have := dCurve_id "t" (by simp) t ht
      simpa [eval, dCurve] using this
    · have := dCurve_id "u" (by simp) t ht
      simpa [eval, dCurve] using this
    · have := dCurve_const "_lam_x" (by decide) (by decide) (by decide) (by decide) (by decide) t ht
      simpa [eval, dCurve] using this
    · have : HasDerivAt (fun τ : ℝ => τ ^ 2) (2 * t) t := by
        have := hasDerivAt_pow 2 t
        simpa using this
      simpa [eval, dCurve] using this
    · have := dCurve_const "_lam_u" (by decide) (by decide) (by decide) (by decide) (by decide) t ht
      have e : eval (real U) (dCurve t) (dH.diff "u") = 0 := by
        simp [dH, hamiltonianOf, lamName, diff, eval, dCurve]; ring
      simpa [eval, e] using this
  fixed := by
    intro s h1 h2 h3 h4
    rw [dP'_states] at h1
    rw [dP'_rest.2.2.2.1] at h4
    simp only [List.map_cons, List.mem_cons, not_or] at h1
    exact dCurve_const s h1.2.1 h1.2.2.1 h4 h1.1 h1.2.2.2.2.1
  law := fun h => absurd dP'_rest.1 h
  initial := by
    intro c hc
    have : c.expr ∈ dP'.initial.map Con.expr := List.mem_map.2 ⟨c, hc, rfl⟩
    rw [dP'_initial, dphi0] at this
    simp only [List.mem_cons, List.not_mem_nil, or_false] at this
    rcases this with h | h | h | h | h <;> rw [h] <;> simp [eval, diff, dCurve]
  terminal := by
    intro c hc
    have : c.expr ∈ dP'.terminal.map Con.expr := List.mem_map.2 ⟨c, hc, rfl⟩
    rw [dP'_terminal, dphif] at this
    simp only [List.mem_cons, List.not_mem_nil, or_false] at this
    rcases this with h | h | h | h | h | h <;> rw [h] <;>
      simp [eval, diff, dCurve, dH, hamiltonianOf, lamName] <;> norm_num

theorem d_completes (U : Name → Nat → ℝ → ℝ) : Completes U dP id where
  off := fun _ _ _ => rfl
  quantities := by simp [dP]
  switches := by simp [dP]
  trig := by simp [TrigEnv, dP]

theorem dRegular (U : Name → Nat → ℝ → ℝ) : Regular dS U dq dP' 0 1 dCurve := by
  obtain ⟨e1, e2, e3, e4, e5, e6, e7, e8⟩ := dq_rest
  have hends : ∀ ρ, SmoothEnds dq U ρ := by
    intro ρ
    rw [SmoothEnds, e3, e4]
    refine ⟨trivial, trivial, fun c hc => ?_⟩
    have : c.expr ∈ dq.initial.map Con.expr ++ dq.terminal.map Con.expr := by
      rw [← List.map_append]
      exact List.mem_map_of_mem hc
    rw [e5, e6] at this
    simp only [List.mem_append, List.mem_cons, List.not_mem_nil, or_false] at this
    rcases this with (h | h) | (h | h) <;> rw [h]
    · trivial
    · trivial
    · exact smooth_sub ⟨trivial, trivial⟩ trivial
    · exact smooth_sub trivial trivial
  refine ⟨fun t _ => ?_, (hends _).start, (hends _).stop, ?_, ?_, ?_, ?_, ?_⟩
  · rw [SmoothRates, e1, e2]
    refine ⟨⟨⟨trivial, trivial⟩, ⟨trivial, trivial⟩, trivial⟩, ?_⟩
    intro s hs
    simp only [List.mem_cons, List.not_mem_nil, or_false] at hs
    rcases hs with rfl | rfl <;> trivial
  · intro t _ u hu
    rw [e8]
    rw [e7, List.mem_singleton] at hu
    subst hu
    simp [dH, hamiltonianOf, lamName, diff, Smooth]
  · intro t _ d hd
    rw [dP'_states] at hd
    simp only [List.mem_cons, List.not_mem_nil, or_false] at hd
    rcases hd with rfl | rfl | rfl | rfl | rfl | rfl
    · exact ⟨⟨trivial, trivial, trivial⟩, trivial⟩
    · exact ⟨⟨trivial, trivial⟩, trivial⟩
    · exact ⟨⟨trivial, trivial⟩, trivial⟩
    · exact ⟨⟨trivial, trivial⟩, trivial⟩
    · exact ⟨⟨trivial, trivial, trivial, trivial, trivial⟩, trivial⟩
    · simp [dH, hamiltonianOf, lamName, diff, Defined]
  · intro t _ opt ho
    rw [dP'_rest.2.1] at ho
    cases ho
  · intro t _ u hu
    rw [dP'_rest.1] at hu
    cases hu
  · intro om ho t _
    rw [dP'_rest.2.2.2.2] at ho
    cases ho
    refine ⟨?_, ?_⟩
    · intro row hr e he
      obtain ⟨i, -, rfl⟩ := List.mem_map.1 hr
      obtain ⟨j, -, rfl⟩ := List.mem_map.1 he
      have h1 : ∀ k, Defined (real U) (dCurve t) (([1] : List Expr).getD k 0) := by
        intro k
        cases k <;> trivial
      split
      · exact ⟨trivial, h1 _⟩
      · split
        · exact h1 _
        · split
          · trivial
          · split <;> trivial
    · intro qd hq d hd
      rw [dq_dual.1] at hq
      cases hq
      rw [dq_dual.2] at hd
      simp only [List.mem_cons, List.not_mem_nil, or_false] at hd
      rcases hd with rfl | rfl
      all_goals simp [Defined]

/-- With 'diffyg' and differential control, the curve `x = t² / 2` with the control `t` solves the generated problem, and it is
an extremal of the stated one. -/
example (U : Name → Nat → ℝ → ℝ) : ∃ B, Barriers B ∧ Solves U dP' 0 1 dCurve ∧
    Extremal (userOcp U id B dP) 0 1 dCurve (fun s n => dCurve s ("_lam_" ++ n))
      (fun i => dCurve 0 ("_nu_0_" ++ toString i)) (fun i => dCurve 0 ("_nu_f_" ++ toString i)) := by
  obtain ⟨q, B, hq, hB, h⟩ := C64_extremal_partial dS_sound dP_stated (o := dO) rfl (by decide) (fun e => by cases e) dP'_ok
  rw [dq_ok] at hq
  cases hq
  have := h U id (d_completes U) 0 1 dCurve (by norm_num) (dSolves U) (dRegular U) 1 (by
    have : "_delta_" ++ dP.ind = "_delta_t" := rfl
    rw [this]; simp [dO, dCurve]) (by norm_num)
  have e : dCurve 0 dP.ind = 0 := by simp [dP, dCurve]
  simp only [e, sub_zero, div_one, zero_add, one_mul] at this
  exact ⟨B, hB, dSolves U, this⟩

theorem dCarries (U : Name → Nat → ℝ → ℝ) (B : ℝ → ℝ → ℝ → ℝ → ℝ) : Carries (userOcp U id B dP) true 0 1 0 dCurve
    (fun s n => dCurve s ("_lam_" ++ n)) (fun i => dCurve 0 ("_nu_0_" ++ toString i))
    (fun i => dCurve 0 ("_nu_f_" ++ toString i)) dCurve where
  moving := by intro s _ τ; simp
  time := by
    intro τ
    simp [userOcp, dP, dCurve]
  costates := by intro r _ τ; simp
  costate_time := by
    intro τ
    have e1 : "_lam_" ++ (userOcp U id B dP).ind = "_lam_t" := rfl
    have e2 : "_lam_" ++ "x" = "_lam_x" := rfl
    rw [e1]
    simp [Ocp.ham, userOcp, dP, dCurve, eval, penalties, e2]
    ring
  start := fun _ _ => rfl
  stop := fun _ _ => rfl
  duration := by
    intro _
    have e1 : "_delta_" ++ (userOcp U id B dP).ind = "_delta_t" := rfl
    rw [e1]
    simp [dCurve]
  plain := fun _ _ _ _ _ => rfl
  rest := by
    intro s h1 h2 h3 h4 h5 τ
    have e1 : s ≠ "x" := fun e => h1 (by simp [Ocp.moving, userOcp, dP, e])
    have e0 : s ≠ "u" := fun e => h1 (by simp [Ocp.moving, userOcp, dP, e, epsControls])
    have e2 : s ≠ "t" := h2
    have e3 : s ≠ "_tau" := by simpa using h5
    have e4 : s ≠ "_lam_t" := h4
    simp [dCurve, e1, e2, e3, e4, e0]

/-- The other way round: because the curve is an extremal, it solves the generated problem. -/
example (U : Name → Nat → ℝ → ℝ) : ∃ B, Barriers B ∧
    Extremal (userOcp U id B dP) 0 1 dCurve (fun s n => dCurve s ("_lam_" ++ n))
      (fun i => dCurve 0 ("_nu_0_" ++ toString i)) (fun i => dCurve 0 ("_nu_f_" ++ toString i)) ∧
    (Extremal (userOcp U id B dP) 0 1 dCurve (fun s n => dCurve s ("_lam_" ++ n))
      (fun i => dCurve 0 ("_nu_0_" ++ toString i)) (fun i => dCurve 0 ("_nu_f_" ++ toString i)) →
        Solves U dP' 0 1 dCurve) := by
  obtain ⟨q, B, hq, hB, h⟩ := C71_exact_partial dS_sound dP_stated (o := dO) rfl (by decide) (fun e => by cases e) dP'_ok
  rw [dq_ok] at hq
  cases hq
  have := h U id (d_completes U) 0 1 dCurve (fun s n => dCurve s ("_lam_" ++ n)) (fun i => dCurve 0 ("_nu_0_" ++ toString i))
    (fun i => dCurve 0 ("_nu_f_" ++ toString i)) ?_ ?_ 0 1 1 (by norm_num) (by norm_num) (fun _ => rfl) (by norm_num)
    dCurve (dCarries U B) (dRegular U) (fun e => by cases e) ?_ ?_
  · refine ⟨B, hB, ?_, this.1⟩
    have := this.2 (dSolves U)
    simpa only [sub_zero, div_one, zero_add] using this
  · intro s hs t ht
    have : s = "u" := by
      have e : (userOcp U id B dP).controls = ["u"] := by
        change dP.controls.map (fun u => if u ∈ epsControls dP.path then trigName u else u) = _
        decide
      rw [e, List.mem_singleton] at hs
      exact hs
    subst this
    exact (dCurve_id "u" (by simp) t ht).differentiableAt
  · intro s h1 h2 h3 t _
    have e1 : s ≠ "x" := fun e => h2 (by simp [Ocp.moving, userOcp, dP, e])
    have e0 : s ≠ "u" := fun e => h2 (by simp [Ocp.moving, userOcp, dP, e, epsControls])
    have e2 : s ≠ "t" := h3
    have e3 : s ≠ "_tau" := fun e => h1 (Or.inr (Or.inr (Or.inr (Or.inr e))))
    have e4 : s ≠ "_lam_t" := fun e => h1 (Or.inl ⟨"t", e⟩)
    simp [dCurve, e1, e2, e3, e4, e0]
  · intro _ t _
    rw [dq_rest.2.2.2.2.2.2.1, dq_rest.2.2.2.2.2.2.2]
    intro v hv j hj
    have hj : j = 0 := by simpa using hj
    subst hj
    have := hv 0 (by simp)
    simpa [dH, hamiltonianOf, lamName, diff, eval] using this
  · intro _ _ u hu
    have : u = "u" := by
      have e : (userOcp U id B dP).controls = ["u"] := by
        change dP.controls.map (fun u => if u ∈ epsControls dP.path then trigName u else u) = _
        decide
      rw [e, List.mem_singleton] at hu
      exact hu
    subst this
    have : "_lam_" ++ "u" = "_lam_u" := rfl
    rw [this]
    simp [dCurve]

end Beluga.Opt
