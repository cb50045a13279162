import Verif.EndToEnd.Brachistochrone
import Verif.Extremal.Converse
import Mathlib.Analysis.SpecialFunctions.Trigonometric.Bounds

/-!
# Every target has its curve of fastest descent (C94)

The converse of `Verif.EndToEnd.Brachistochrone`: cycloids solve the boundary value problem that beluga makes of the brachistochrone
problem, so it has a solution for every target that is lower than the start and to the right of it.
-/

namespace Beluga.E2E

open Beluga.Sym Beluga.Sym.Expr Beluga.Num Beluga.Map Beluga.Opt Beluga.Rep

/-! ### A cycloid as an extremal -/

/-- The cycloid with its direction, speed, time and constants. -/
noncomputable def cycCurve (g r ω T t : ℝ) : Env := fun s =>
  if s = "x" then r * (ω * t - Real.sin (ω * t)) else if s = "y" then -(r * (1 - Real.cos (ω * t)))
  else if s = "v" then 2 * r * ω * Real.sin (ω / 2 * t) else if s = "theta" then ω / 2 * t - Real.pi / 2
  else if s = "t" then t else if s = "g" then g else if s = "x_f" then (rolled r ω T).1 else if s = "y_f" then (rolled r ω T).2 else 0

/-- The costate of the height. -/
noncomputable def cycY (r ω T : ℝ) : ℝ := Real.cos (ω / 2 * T) / (2 * r * ω * Real.sin (ω / 2 * T))

/-- The costates of the cycloid. -/
noncomputable def cycLam (g r ω T t : ℝ) : Name → ℝ := fun s =>
  if s = "x" then ω / (2 * g) else if s = "y" then cycY r ω T
  else if s = "v" then (Real.cos (ω / 2 * t) - cycY r ω T * (2 * r * ω * Real.sin (ω / 2 * t))) / g else 0

theorem brach_start (U : Name → Nat → ℝ → ℝ) (B : ℝ → ℝ → ℝ → ℝ → ℝ) (ν : Nat → ℝ) (σ : Env) :
    lagrange (userOcp U id B brach).costInitial (userOcp U id B brach).initial ν σ =
      ν 0 * σ "x" + (ν 1 * σ "y" + (ν 2 * σ "v" + ν 3 * σ "t")) := by
  simp [lagrange, userOcp, brach, penalties, Con.twoSided, List.filter, eval]

theorem brach_stop (U : Name → Nat → ℝ → ℝ) (B : ℝ → ℝ → ℝ → ℝ → ℝ) (ν : Nat → ℝ) (σ : Env) :
    lagrange (userOcp U id B brach).costTerminal (userOcp U id B brach).terminal ν σ =
      ν 0 * (σ "x" - σ "x_f") + ν 1 * (σ "y" - σ "y_f") := by
  simp [lagrange, userOcp, brach, penalties, Con.twoSided, List.filter, eval]

theorem cyc_extremal (U : Name → Nat → ℝ → ℝ) (B : ℝ → ℝ → ℝ → ℝ → ℝ) {g r ω T : ℝ} (hg : g < 0) (hω : 0 < ω) (hr : r * ω ^ 2 = -g)
    (hT : 0 < T) (sinT : Real.sin (ω / 2 * T) ≠ 0) :
    Extremal (userOcp U id B brach) 0 T (cycCurve g r ω T) (cycLam g r ω T)
      (fun i => if i = 3 then 0 else -cycLam g r ω T 0 (["x", "y", "v"].getD i "")) (fun i => cycLam g r ω T T (["x", "y"].getD i "")) := by
  have e1 : ∀ v, (real U).fn .cos v = Real.cos v := fun _ => rfl
  have e2 : ∀ v, (real U).fn .sin v = Real.sin v := fun _ => rfl
  have cosθ : ∀ t, Real.cos (ω / 2 * t - Real.pi / 2) = Real.sin (ω / 2 * t) := fun t => Real.cos_sub_pi_div_two _
  have sinθ : ∀ t, Real.sin (ω / 2 * t - Real.pi / 2) = -Real.cos (ω / 2 * t) := fun t => Real.sin_sub_pi_div_two _
  have dbl : ∀ t, ω * t = 2 * (ω / 2 * t) := fun t => by ring
  have lin : ∀ (k t : ℝ), HasDerivAt (fun τ => k * τ) k t := fun k t => by simpa using (hasDerivAt_id t).const_mul k
  have hr0 : r ≠ 0 := by
    rintro rfl
    linarith
  have hg0 := hg.ne
  have ham0 : ∀ t, (userOcp U id B brach).ham (cycLam g r ω T t) (cycCurve g r ω T t) = 0 := by
    intro t
    rw [brach_ham]
    simp only [cycLam, cycCurve, String.reduceEq, if_true, if_false, cosθ, sinθ]
    have sc := Real.sin_sq_add_cos_sq (ω / 2 * t)
    generalize Real.sin (ω / 2 * t) = S at *
    generalize Real.cos (ω / 2 * t) = C at *
    field_simp
    linear_combination S ^ 2 * hr - g * sc
  refine ⟨?_, ?_, ?_, ?_, ?_, ?_, ?_, ?_, ?_, ?_, ?_⟩
  · intro t _
    simp [userOcp, brach, cycCurve]
  · intro s hs t _
    simp only [userOcp, brach, List.mem_cons, List.not_mem_nil, or_false] at hs
    rcases hs with rfl | rfl | rfl <;> simp [cycCurve]
  · intro p hp t _
    simp only [userOcp, brach, List.map_cons, List.map_nil, List.mem_cons, List.not_mem_nil, or_false] at hp
    rcases hp with rfl | rfl | rfl
    · simp only [cycCurve, String.reduceEq, if_true, if_false, id, eval, e1, cosθ]
      refine (((lin ω t).sub (lin ω t).sin).const_mul r).congr_deriv ?_
      rw [dbl t, Real.cos_two_mul, Real.cos_sq']
      ring
    · simp only [cycCurve, String.reduceEq, if_true, if_false, id, eval, e2, sinθ]
      refine (((((lin ω t).cos).const_sub 1).const_mul r).neg).congr_deriv ?_
      rw [dbl t, Real.sin_two_mul]
      ring
    · simp only [cycCurve, String.reduceEq, if_true, if_false, id, eval, e2, sinθ]
      refine (((lin (ω / 2) t).sin).const_mul (2 * r * ω)).congr_deriv ?_
      linear_combination (Real.cos (ω / 2 * t)) * hr
  · intro p hp t _
    simp only [userOcp, brach, List.map_cons, List.map_nil, List.mem_cons, List.not_mem_nil, or_false] at hp
    rcases hp with rfl | rfl | rfl
    · refine ⟨0, ?_, ?_⟩
      · simp only [HasPartial, brach_ham, Function.update_apply, String.reduceEq, if_false]
        exact hasDerivAt_const _ _
      · simp only [cycLam, String.reduceEq, if_true, neg_zero]
        exact hasDerivAt_const _ _
    · refine ⟨0, ?_, ?_⟩
      · simp only [HasPartial, brach_ham, Function.update_apply, String.reduceEq, if_false]
        exact hasDerivAt_const _ _
      · simp only [cycLam, String.reduceEq, if_true, if_false, neg_zero]
        exact hasDerivAt_const _ _
    · refine ⟨ω / (2 * g) * (1 * Real.sin (ω / 2 * t)) + cycY r ω T * (1 * -Real.cos (ω / 2 * t)), ?_, ?_⟩
      · simp only [HasPartial, brach_ham, Function.update_apply, String.reduceEq, if_false, if_true]
        simp only [cycLam, cycCurve, String.reduceEq, if_true, if_false, cosθ, sinθ]
        exact ((((hasDerivAt_id _).mul_const _).const_mul _).add ((((hasDerivAt_id _).mul_const _).const_mul _).add_const _)).const_add _
      · simp only [cycLam, String.reduceEq, if_true, if_false]
        refine ((((lin (ω / 2) t).cos).sub ((((lin (ω / 2) t).sin).const_mul (2 * r * ω)).const_mul (cycY r ω T))).div_const g).congr_deriv ?_
        generalize Real.sin (ω / 2 * t) = S at *
        generalize Real.cos (ω / 2 * t) = C at *
        field_simp
        linear_combination (-2 * cycY r ω T * C) * hr
  · intro u hu t _
    have hu : u = "theta" := by simpa [userOcp, brach, epsControls] using hu
    subst hu
    simp only [HasPartial, brach_ham, Function.update_apply, String.reduceEq, if_false, if_true]
    simp only [cycLam, cycCurve, String.reduceEq, if_true, if_false]
    refine ((((((Real.hasDerivAt_cos _).const_mul _).const_mul _).add ((((Real.hasDerivAt_sin _).const_mul _).const_mul _).add
        (((Real.hasDerivAt_sin _).const_mul _).const_mul _))).const_add _)).congr_deriv ?_
    rw [cosθ, sinθ]
    generalize Real.sin (ω / 2 * t) = S at *
    generalize Real.cos (ω / 2 * t) = C at *
    field_simp
    linear_combination S * C * hr
  · intro c hc
    simp only [userOcp, brach, Con.twoSided, List.filter, Option.isSome, Bool.and_false, Bool.not_false, List.map_cons, List.map_nil,
      List.mem_cons, List.not_mem_nil, or_false] at hc
    rcases hc with rfl | rfl | rfl | rfl <;> simp [cycCurve, eval]
  · intro c hc
    simp only [userOcp, brach, Con.twoSided, List.filter, Option.isSome, Bool.and_false, Bool.not_false, List.map_cons, List.map_nil,
      List.mem_cons, List.not_mem_nil, or_false] at hc
    rcases hc with rfl | rfl <;> simp [cycCurve, eval, rolled]
  · intro p hp
    simp only [userOcp, brach, List.map_cons, List.map_nil, List.mem_cons, List.not_mem_nil, or_false] at hp
    rcases hp with rfl | rfl | rfl
    all_goals simp only [HasPartial, brach_start, Function.update_apply, String.reduceEq, if_true, if_false]
    · exact (((hasDerivAt_id _).const_mul _).add_const _).congr_deriv (by simp)
    · exact ((((hasDerivAt_id _).const_mul _).add_const _).const_add _).congr_deriv (by simp)
    · exact (((((hasDerivAt_id _).const_mul _).add_const _).const_add _).const_add _).congr_deriv (by simp)
  · intro p hp
    simp only [userOcp, brach, List.map_cons, List.map_nil, List.mem_cons, List.not_mem_nil, or_false] at hp
    rcases hp with rfl | rfl | rfl
    all_goals simp only [HasPartial, brach_stop, Function.update_apply, String.reduceEq, if_true, if_false]
    · exact ((((hasDerivAt_id _).sub_const _).const_mul _).add_const _).congr_deriv (by simp)
    · exact ((((hasDerivAt_id _).sub_const _).const_mul _).const_add _).congr_deriv (by simp)
    · refine (hasDerivAt_const _ _).congr_deriv ?_
      simp only [cycLam, cycY, String.reduceEq, if_true, if_false]
      have := hω.ne'
      generalize Real.sin (ω / 2 * T) = S at *
      generalize Real.cos (ω / 2 * T) = C at *
      field_simp
      simp
  · rw [ham0]
    show HasPartial _ "t" _ _
    simp only [HasPartial, brach_start, Function.update_apply, String.reduceEq, if_true, if_false]
    exact ((((hasDerivAt_id _).const_mul _).const_add _).const_add _ |>.const_add _).congr_deriv (by simp)
  · rw [ham0]
    show HasPartial _ "t" _ _
    simp only [HasPartial, brach_stop, Function.update_apply, String.reduceEq, if_false]
    exact (hasDerivAt_const _ _).congr_deriv (by simp)

/-! ### What beluga makes of the problem -/

/-- The denominators in an expression. -/
def denoms : Expr → List Expr
  | num _ | pi | sym _ => []
  | add a b | mul a b => denoms a ++ denoms b
  | inv a => a :: denoms a
  | pow a _ => denoms a
  | fn _ a => denoms a

theorem defined_of_denoms {K : Type _} [Field K] {I : Interp K} {ρ : Name → K} :
    ∀ {e : Expr}, (∀ d ∈ denoms e, eval I ρ d ≠ 0) → Defined I ρ e
  | num _, _ | pi, _ | sym _, _ => trivial
  | add _ _, h | mul _ _, h => ⟨defined_of_denoms fun d hd => h d (List.mem_append_left _ hd),
      defined_of_denoms fun d hd => h d (List.mem_append_right _ hd)⟩
  | inv a, h => ⟨defined_of_denoms fun d hd => h d (List.mem_cons_of_mem _ hd), h a List.mem_cons_self⟩
  | pow a _, h => defined_of_denoms (e := a) h
  | fn _ a, h => defined_of_denoms (e := a) h

/-- An expression without denominators, logarithms, roots and functions of the user. -/
def entire : Expr → Bool
  | num _ | pi | sym _ => true
  | add a b | mul a b => entire a && entire b
  | inv _ => false
  | pow a _ => entire a
  | fn f a => entire a && (match f with | .sin | .cos | .exp | .atan => true | _ => false)

theorem smooth_of_entire {U : Name → Nat → ℝ → ℝ} {ρ : Name → ℝ} : ∀ {e : Expr}, entire e = true → Smooth U ρ e
  | num _, _ | pi, _ | sym _, _ => trivial
  | add a b, h | mul a b, h => by
    simp only [entire, Bool.and_eq_true] at h
    exact ⟨smooth_of_entire h.1, smooth_of_entire h.2⟩
  | pow a _, h => smooth_of_entire (e := a) h
  | fn f a, h => by
    simp only [entire, Bool.and_eq_true] at h
    refine ⟨smooth_of_entire h.1, ?_⟩
    have h2 := h.2
    cases f <;> trivial

/-- A `LUsolve` by Cramer's rule; nothing else of sympy is used. -/
def brachS : Sympy := ⟨fun _ _ => [], cramerLu, fun _ _ => 0⟩

def brachQ : Prob := match primal brachS brach with
  | .ok p => p
  | .error _ => {}

theorem brachQ_ok : primal brachS brach = .ok brachQ := by
  have : (match primal brachS brach with | .ok _ => true | .error _ => false) = true := by decide +kernel
  rw [brachQ]
  cases h : primal brachS brach with
  | ok p => rfl
  | error e => rw [h] at this; cases this

/-- The boundary value problem. -/
def brachBvp : Prob := match indirect brachS {} brach with
  | .ok p => p
  | .error _ => {}

theorem brachBvp_ok : indirect brachS {} brach = .ok brachBvp := by
  have : (match indirect brachS {} brach with | .ok _ => true | .error _ => false) = true := by decide +kernel
  rw [brachBvp]
  cases h : indirect brachS {} brach with
  | ok p => rfl
  | error e => rw [h] at this; cases this

/-- The Hamiltonian. -/
def brachH : Expr := hamiltonianOf 1 [⟨"x", sym "v" * fn .cos (sym "theta")⟩, ⟨"y", sym "v" * fn .sin (sym "theta")⟩,
  ⟨"v", sym "g" * fn .sin (sym "theta")⟩, ⟨"t", 1⟩]

theorem brachQ_facts : entire brachQ.costPath = true ∧ (∀ d ∈ brachQ.states, entire d.eom = true) ∧ entire brachQ.costInitial = true ∧
    entire brachQ.costTerminal = true ∧ (∀ c ∈ brachQ.initial ++ brachQ.terminal, entire c.expr = true) ∧ brachQ.controls = ["theta"] ∧
    hexpr brachQ = brachH ∧ entire ((hexpr brachQ).diff "theta") = true := by decide +kernel

theorem brachBvp_facts : (∀ d ∈ brachBvp.states, ∀ e ∈ denoms d.eom, e = detE 1 fun _ _ => (brachH.diff "theta").diff "theta") ∧
    brachBvp.controls = [] ∧ brachBvp.controlLaw = [] ∧ brachBvp.omega = none := by decide +kernel

theorem brachH_second {U : Name → Nat → ℝ → ℝ} {σ : Env} : eval (real U) σ ((brachH.diff "theta").diff "theta") =
    -(σ "_lam_x" * σ "v" * Real.cos (σ "theta") + (σ "_lam_y" * σ "v" + σ "_lam_v" * σ "g") * Real.sin (σ "theta")) := by
  have e1 : ∀ v, (real U).fn .cos v = Real.cos v := fun _ => rfl
  have e2 : ∀ v, (real U).fn .sin v = Real.sin v := fun _ => rfl
  simp [brachH, hamiltonianOf, lamName, diff, dfn, eval, e1, e2]
  ring

/-- Through every point that is lower than the start and to the right of it goes the first arch of a cycloid. -/
theorem cycloid_to {g xf yf : ℝ} (hg : g < 0) (hx : 0 < xf) (hy : yf < 0) :
    ∃ r ω T, 0 < r ∧ 0 < ω ∧ r * ω ^ 2 = -g ∧ 0 < T ∧ ω * T < 2 * Real.pi ∧ rolled r ω T = (xf, yf) := by
  obtain ⟨ψ, h0, h1, hψ⟩ : ∃ ψ, 0 < ψ ∧ ψ < 2 * Real.pi ∧ (ψ - Real.sin ψ) * -yf - xf * (1 - Real.cos ψ) = 0 := by
    have hpi := Real.two_le_pi
    obtain ⟨ε, he0, he1, he2⟩ : ∃ ε : ℝ, 0 < ε ∧ ε ≤ 1 ∧ ε * (Real.pi ^ 2 * -yf) < 8 * xf := by
      have hk : 0 < Real.pi ^ 2 * -yf := mul_pos (by positivity) (by linarith)
      refine ⟨min 1 (4 * xf / (Real.pi ^ 2 * -yf)), lt_min one_pos (by positivity), min_le_left _ _, ?_⟩
      calc _ ≤ 4 * xf / (Real.pi ^ 2 * -yf) * (Real.pi ^ 2 * -yf) := mul_le_mul_of_nonneg_right (min_le_right _ _) hk.le
        _ = 4 * xf := div_mul_cancel₀ _ hk.ne'
        _ < _ := by linarith
    have c : ContinuousOn (fun ψ => (ψ - Real.sin ψ) * -yf - xf * (1 - Real.cos ψ)) (Set.Icc ε (2 * Real.pi)) := by fun_prop
    have lo : (ε - Real.sin ε) * -yf - xf * (1 - Real.cos ε) < 0 := by
      have s1 := Real.sin_gt_sub_cube he0
      have s2 := Real.cos_le_one_sub_mul_cos_sq (x := ε) (by rw [abs_of_pos he0]; linarith)
      have s3 : (ε - Real.sin ε) * -yf < ε ^ 3 / 4 * -yf := mul_lt_mul_of_pos_right (by linarith [pow_pos he0 3]) (by linarith)
      have s4 : xf * (2 / Real.pi ^ 2 * ε ^ 2) ≤ xf * (1 - Real.cos ε) := mul_le_mul_of_nonneg_left (by linarith) hx.le
      have s5 : ε ^ 3 / 4 * -yf ≤ xf * (2 / Real.pi ^ 2 * ε ^ 2) := by
        have hp2 : 0 < Real.pi ^ 2 := by positivity
        rw [show xf * (2 / Real.pi ^ 2 * ε ^ 2) = (8 * xf) * (ε ^ 2 / 4) / Real.pi ^ 2 by field_simp; ring, le_div_iff₀ hp2]
        have := mul_le_mul_of_nonneg_right he2.le (show 0 ≤ ε ^ 2 / 4 by positivity)
        linarith
      linarith
    have hi : 0 < (2 * Real.pi - Real.sin (2 * Real.pi)) * -yf - xf * (1 - Real.cos (2 * Real.pi)) := by
      rw [Real.sin_two_pi, Real.cos_two_pi]
      have := mul_pos Real.two_pi_pos (show 0 < -yf by linarith)
      linarith
    obtain ⟨ψ, hm, hz⟩ := intermediate_value_Icc (by linarith) c (show (0 : ℝ) ∈ Set.Icc _ _ from ⟨lo.le, hi.le⟩)
    refine ⟨ψ, by linarith [hm.1], lt_of_le_of_ne hm.2 ?_, hz⟩
    rintro rfl
    exact hi.ne' hz
  have hc : 0 < 1 - Real.cos ψ := by
    have := Real.sin_pos_of_pos_of_lt_pi (x := ψ / 2) (by linarith) (by linarith)
    have e := Real.cos_sq' (ψ / 2)
    have e2 := Real.cos_two_mul (ψ / 2)
    rw [show 2 * (ψ / 2) = ψ by ring] at e2
    nlinarith
  obtain ⟨r, hr⟩ : ∃ r, r = -yf / (1 - Real.cos ψ) := ⟨_, rfl⟩
  have hr0 : 0 < r := by
    rw [hr]
    exact div_pos (by linarith) hc
  have hry : r * (1 - Real.cos ψ) = -yf := by
    rw [hr]
    field_simp
  have hrx : r * (ψ - Real.sin ψ) = xf := by
    rw [hr]
    field_simp
    linarith
  obtain ⟨ω, hω⟩ : ∃ ω, ω = Real.sqrt (-g / r) := ⟨_, rfl⟩
  have hω0 : 0 < ω := by
    rw [hω]
    exact Real.sqrt_pos.2 (div_pos (by linarith) hr0)
  have hω2 : r * ω ^ 2 = -g := by
    rw [hω, Real.sq_sqrt (div_pos (by linarith) hr0).le]
    field_simp
  have hT : ω * (ψ / ω) = ψ := by field_simp
  refine ⟨r, ω, ψ / ω, hr0, hω0, hω2, div_pos h0 hω0, by rw [hT]; exact h1, ?_⟩
  rw [rolled, hT, Prod.mk.injEq]
  exact ⟨hrx, by rw [hry]; ring⟩

/-! ### Properties -/

/-- Cycloids are solutions: for every gravity, every cycloid from the start that does not end at the height of the start is carried by a
solution of the boundary value problem that beluga makes of the brachistochrone problem with its default options, with the end of the
cycloid as target. -/
theorem C94_complete (U : Name → Nat → ℝ → ℝ) {g r ω T : ℝ} (hg : g < 0) (hω : 0 < ω) (hr : r * ω ^ 2 = -g) (hT : 0 < T)
    (sinT : Real.sin (ω / 2 * T) ≠ 0) :
    ∃ ρ, Solves U brachBvp 0 1 ρ ∧ Regular brachS U brachQ brachBvp 0 1 ρ ∧ 0 < ρ 0 "_delta_t" ∧
      (∀ t ∈ Set.Icc (0 : ℝ) 1, DifferentiableAt ℝ (fun τ => ρ τ "theta") t) ∧ ρ 0 "g" = g ∧
      (ρ 1 "x_f", ρ 1 "y_f") = rolled r ω T ∧
      ∀ τ ∈ Set.Icc (0 : ℝ) 1, ρ τ "t" = T * τ ∧ (ρ τ "x", ρ τ "y") = rolled r ω (T * τ) := by
  obtain ⟨q, B, hq, -, H⟩ := C71_complete_partial (luSound_cramer brachS rfl) brach_stated (o := {}) rfl (by decide) brachBvp_ok
  obtain rfl : brachQ = q := Except.ok.inj (brachQ_ok.symm.trans hq)
  have hx := cyc_extremal U B hg hω hr hT sinT
  have mv : (userOcp U id B brach).moving = ["x", "y", "v", "theta"] := by
    simp [Ocp.moving, userOcp, brach, epsControls]
  obtain ⟨⟨ρ, hρ, -⟩, K⟩ := H U id (brach_completes U) 0 T _ _ _ _ hx (by
      intro s hs t _
      have hs : s = "theta" := by simpa [userOcp, brach, epsControls] using hs
      subst hs
      simp only [cycCurve, String.reduceEq, if_true, if_false]
      fun_prop) (by
      intro s _ hs h2 t _
      rw [mv] at hs
      simp only [List.mem_cons, List.not_mem_nil, or_false, not_or] at hs
      have h2 : s ≠ "t" := h2
      simp only [cycCurve, hs.1, hs.2.1, hs.2.2.1, hs.2.2.2, h2, if_false]) 0 1 T one_pos hT (by simp) (by ring)
  have nm : ∀ s ∈ ["g", "x_f", "y_f"], s ∉ ["x", "y", "v", "theta"] ∧ s ≠ "t" ∧ s ≠ "_lam_" ++ "x" ∧ s ≠ "_lam_" ++ "y" ∧
      s ≠ "_lam_" ++ "v" ∧ s ≠ "_lam_t" ∧ s ≠ "_tau" ∧ s ≠ "_t" ∧ ¬ Reserved s := by decide +kernel
  have cst : ∀ s, s ∈ ["g", "x_f", "y_f"] → ∀ τ, ρ τ s = cycCurve g r ω T 0 s := by
    intro s hs τ
    obtain ⟨n1, n2, n3, n4, n5, n6, n7, n8, n9⟩ := nm s hs
    have h1 : s ∉ (userOcp U id B brach).moving := by
      rw [mv]
      exact n1
    rw [hρ.rest s h1 n2 (by
        intro x hx
        have : x.1 = "x" ∨ x.1 = "y" ∨ x.1 = "v" := by
          simp only [userOcp, brach, List.map_cons, List.map_nil, List.mem_cons, List.not_mem_nil, or_false] at hx
          rcases hx with rfl | rfl | rfl <;> simp
        rcases this with e | e | e <;> rw [e]
        · exact n3
        · exact n4
        · exact n5) n6 n7 τ]
    exact hρ.plain s n9 h1 n2 n8
  have mov : ∀ s, s ∈ ["x", "y", "v", "theta"] → ∀ τ, ρ τ s = cycCurve g r ω T (0 + T * (τ - 0)) s := by
    intro s hs τ
    exact hρ.moving s (by rw [mv]; exact hs) τ
  have lx : ∀ τ, ρ τ "_lam_x" = cycLam g r ω T (0 + T * (τ - 0)) "x" :=
    hρ.costates ((userOcp U id B brach).rates[0]'(by simp [userOcp, brach])) (List.getElem_mem _)
  have ly : ∀ τ, ρ τ "_lam_y" = cycLam g r ω T (0 + T * (τ - 0)) "y" :=
    hρ.costates ((userOcp U id B brach).rates[1]'(by simp [userOcp, brach])) (List.getElem_mem _)
  have lv : ∀ τ, ρ τ "_lam_v" = cycLam g r ω T (0 + T * (τ - 0)) "v" :=
    hρ.costates ((userOcp U id B brach).rates[2]'(by simp [userOcp, brach])) (List.getElem_mem _)
  have snd : ∀ τ, eval (real U) (ρ τ) ((brachH.diff "theta").diff "theta") = 1 := by
    intro τ
    rw [brachH_second, lx, ly, lv, mov "v" (by decide), mov "theta" (by decide), cst "g" (by decide)]
    simp only [cycLam, cycCurve, String.reduceEq, if_true, if_false, Real.cos_sub_pi_div_two, Real.sin_sub_pi_div_two]
    have sc := Real.sin_sq_add_cos_sq (ω / 2 * (0 + T * (τ - 0)))
    generalize Real.sin (ω / 2 * (0 + T * (τ - 0))) = S at *
    generalize Real.cos (ω / 2 * (0 + T * (τ - 0))) = C at *
    have := hg.ne
    field_simp
    linear_combination (-(S ^ 2)) * hr + g * sc
  obtain ⟨f1, f2, f3, f4, f5, f6, f7, f8⟩ := brachQ_facts
  obtain ⟨b1, b2, b3, b4⟩ := brachBvp_facts
  have ends : ∀ τ, SmoothEnds brachQ U (ρ τ) := fun τ =>
    ⟨smooth_of_entire f3, smooth_of_entire f4, fun c hc => smooth_of_entire (f5 c hc)⟩
  have reg : Regular brachS U brachQ brachBvp 0 1 ρ := by
    refine ⟨fun t _ => ⟨smooth_of_entire f1, fun d hd => smooth_of_entire (f2 d hd)⟩, (ends 0).start, (ends 1).stop, ?_, ?_, ?_, ?_, ?_⟩
    · intro t _ u hu
      rw [f6, List.mem_singleton] at hu
      subst hu
      exact smooth_of_entire f8
    · intro t _ d hd
      refine defined_of_denoms fun e he => ?_
      rw [b1 d hd e he, eval_detE]
      simp [snd]
    · intro t _ opt ho
      rw [b3] at ho
      cases ho
    · intro t _ u hu
      rw [b2] at hu
      cases hu
    · intro om ho
      rw [b4] at ho
      cases ho
  refine ⟨ρ, K ρ hρ reg (fun h => by cases h) ?_ (fun h => by cases h), reg, ?_, ?_, ?_, ?_, ?_⟩
  · intro _ t _ v hv j hj
    rw [f6] at hv hj
    have hj : j = 0 := by simpa using hj
    subst hj
    have := hv 0 (by simp)
    rw [f7] at this
    simpa [snd] using this
  · have e : ρ 0 "_delta_t" = T := hρ.duration rfl
    rw [e]
    exact hT
  · intro t _
    have e : (fun τ => ρ τ "theta") = fun τ => ω / 2 * (0 + T * (τ - 0)) - Real.pi / 2 := by
      funext τ
      rw [mov "theta" (by decide)]
      simp [cycCurve]
    rw [e]
    fun_prop
  · rw [cst "g" (by decide)]
    simp [cycCurve]
  · rw [cst "x_f" (by decide), cst "y_f" (by decide)]
    simp [cycCurve]
  · intro τ _
    refine ⟨?_, ?_⟩
    · have e : ρ τ "t" = 0 + T * (τ - 0) := hρ.time τ
      rw [e]
      ring
    · rw [mov "x" (by decide), mov "y" (by decide)]
      simp [cycCurve, rolled]

/-- For every gravity and every target that is lower than the start and to the right of it, the boundary value problem that beluga makes
of the brachistochrone problem with its default options has a solution. -/
theorem C94_exists (U : Name → Nat → ℝ → ℝ) {g xf yf : ℝ} (hg : g < 0) (hx : 0 < xf) (hy : yf < 0) :
    ∃ ρ, Solves U brachBvp 0 1 ρ ∧ Regular brachS U brachQ brachBvp 0 1 ρ ∧ 0 < ρ 0 "_delta_t" ∧
      (∀ t ∈ Set.Icc (0 : ℝ) 1, DifferentiableAt ℝ (fun τ => ρ τ "theta") t) ∧ ρ 0 "g" = g ∧ ρ 1 "x_f" = xf ∧ ρ 1 "y_f" = yf := by
  obtain ⟨r, ω, T, -, hω, hr, hT, hT2, e⟩ := cycloid_to hg hx hy
  obtain ⟨ρ, s1, s2, s3, s4, s5, s6, -⟩ := C94_complete U hg hω hr hT
    (Real.sin_pos_of_pos_of_lt_pi (by positivity) (by linarith)).ne'
  rw [e, Prod.mk.injEq] at s6
  exact ⟨ρ, s1, s2, s3, s4, s5, s6.1, s6.2⟩

/-! ### A concrete case -/

/-- The end of the continuation of the example: to (10, -10) with the gravity of the Earth
(examples/Classic/Brachistochrone/Brachistochrone.py:22-56).  The solution is a cycloid that ends there. -/
example (U : Name → Nat → ℝ → ℝ) : ∃ ρ, Solves U brachBvp 0 1 ρ ∧ ρ 1 "x" = 10 ∧ ρ 1 "y" = -10 ∧
    ∃ r ω, 0 < r ∧ r * ω ^ 2 = 9.81 ∧ ∀ τ ∈ Set.Icc (0 : ℝ) 1, (ρ τ "x", ρ τ "y") = rolled r ω (ρ τ "t") := by
  obtain ⟨ρ, s1, s2, s3, s4, s5, s6, s7⟩ := C94_exists U (g := -9.81) (xf := 10) (yf := -10) (by norm_num) (by norm_num) (by norm_num)
  obtain ⟨q, hq, H⟩ := C94_solutions (luSound_cramer brachS rfl) (o := {}) rfl (by decide) (fun h => by cases h) brachBvp_ok
  obtain rfl : brachQ = q := Except.ok.inj (brachQ_ok.symm.trans hq)
  obtain ⟨⟨r, ω, h1, h2, h3⟩, h4, h5, -⟩ := H U 0 1 ρ one_pos s1 s2 (fun _ => s3) s4 (by rw [s5]; norm_num) (by rw [s6]; norm_num)
  refine ⟨ρ, s1, h4.trans s6, h5.trans s7, r, ω, h1, ?_, fun τ hτ => (h3 τ hτ).1⟩
  rw [h2, s5]
  norm_num

end Beluga.E2E
