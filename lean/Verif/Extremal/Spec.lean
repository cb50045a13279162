import Verif.Symbolic.Dual
import Verif.Symbolic.Follow
import Verif.Symbolic.Oracle

/-!
# Extremals of optimal control problems

The first-order necessary conditions of the calculus of variations, for a problem given by functions.  Nothing here
mentions the functors or the names they generate.
-/

namespace Beluga.Opt

open Beluga.Sym

/-- Values of all symbols. -/
abbrev Env := Name → ℝ

/-- An optimal control problem with free end times: `ind` is the time, `rates` lists the state variables with their
rates, `fixed` the symbols that do not change along a trajectory; minimise initial cost + integral of the path cost +
terminal cost such that all functions in `initial` vanish at the start and all in `terminal` at the end. -/
structure Ocp where
  ind : Name
  rates : List (Name × (Env → ℝ))
  controls : List Name
  fixed : List Name
  path : Env → ℝ
  costInitial : Env → ℝ
  costTerminal : Env → ℝ
  initial : List (Env → ℝ)
  terminal : List (Env → ℝ)

/-- The Hamiltonian for given costates. -/
noncomputable def Ocp.ham (O : Ocp) (lam : Name → ℝ) (σ : Env) : ℝ :=
  O.path σ + (O.rates.map fun r => lam r.1 * r.2 σ).sum

/-- A boundary cost with the conditions attached by multipliers. -/
noncomputable def lagrange (cost : Env → ℝ) (cons : List (Env → ℝ)) (ν : Nat → ℝ) (σ : Env) : ℝ :=
  cost σ + (cons.zipIdx.map fun c => ν c.2 * c.1 σ).sum

/-- The curve `x` over `[a, b]` with costates `lam` and multipliers `ν₀`, `ν₁` satisfies the first-order necessary
conditions: the equations of motion, the adjoint equations, stationarity in the controls, the boundary conditions and
the transversality conditions for the states and for both end times. -/
structure Extremal (O : Ocp) (a b : ℝ) (x : ℝ → Env) (lam : ℝ → Name → ℝ) (ν₀ ν₁ : Nat → ℝ) : Prop where
  time : ∀ t ∈ Set.Icc a b, x t O.ind = t
  fixed : ∀ s ∈ O.fixed, ∀ t ∈ Set.Icc a b, x t s = x a s
  motion : ∀ r ∈ O.rates, ∀ t ∈ Set.Icc a b, HasDerivAt (fun τ => x τ r.1) (r.2 (x t)) t
  adjoint : ∀ r ∈ O.rates, ∀ t ∈ Set.Icc a b, ∃ d, HasPartial (O.ham (lam t)) r.1 d (x t) ∧
    HasDerivAt (fun τ => lam τ r.1) (-d) t
  stationary : ∀ u ∈ O.controls, ∀ t ∈ Set.Icc a b, HasPartial (O.ham (lam t)) u 0 (x t)
  initial : ∀ c ∈ O.initial, c (x a) = 0
  terminal : ∀ c ∈ O.terminal, c (x b) = 0
  start : ∀ r ∈ O.rates, HasPartial (lagrange O.costInitial O.initial ν₀) r.1 (-(lam a r.1)) (x a)
  stop : ∀ r ∈ O.rates, HasPartial (lagrange O.costTerminal O.terminal ν₁) r.1 (lam b r.1) (x b)
  start_time : HasPartial (lagrange O.costInitial O.initial ν₀) O.ind (O.ham (lam a) (x a)) (x a)
  stop_time : HasPartial (lagrange O.costTerminal O.terminal ν₁) O.ind (-(O.ham (lam b) (x b))) (x b)

/-- The curve satisfies the first-order necessary conditions up to a tolerance: the equations of motion and the adjoint
equations hold, the partial derivatives of the Hamiltonian by the controls are constants of size at most `η`, the boundary
conditions and the transversality conditions hold up to `ε`, those for the end times up to `2 ε`, at the start increased by `η`
times the change of the controls. -/
structure NearExtremal (O : Ocp) (ε η a b : ℝ) (x : ℝ → Env) (lam : ℝ → Name → ℝ) (ν₀ ν₁ : Nat → ℝ) : Prop where
  time : ∀ t ∈ Set.Icc a b, x t O.ind = t
  fixed : ∀ s ∈ O.fixed, ∀ t ∈ Set.Icc a b, x t s = x a s
  motion : ∀ r ∈ O.rates, ∀ t ∈ Set.Icc a b, HasDerivAt (fun τ => x τ r.1) (r.2 (x t)) t
  adjoint : ∀ r ∈ O.rates, ∀ t ∈ Set.Icc a b, ∃ d, HasPartial (O.ham (lam t)) r.1 d (x t) ∧
    HasDerivAt (fun τ => lam τ r.1) (-d) t
  stationary : ∀ u ∈ O.controls, ∃ r, |r| ≤ η ∧ ∀ t ∈ Set.Icc a b, HasPartial (O.ham (lam t)) u r (x t)
  initial : ∀ c ∈ O.initial, |c (x a)| ≤ ε
  terminal : ∀ c ∈ O.terminal, |c (x b)| ≤ ε
  start : ∀ r ∈ O.rates, ∃ d, HasPartial (lagrange O.costInitial O.initial ν₀) r.1 d (x a) ∧ |d + lam a r.1| ≤ ε
  stop : ∀ r ∈ O.rates, ∃ d, HasPartial (lagrange O.costTerminal O.terminal ν₁) r.1 d (x b) ∧ |d - lam b r.1| ≤ ε
  start_time : ∃ d, HasPartial (lagrange O.costInitial O.initial ν₀) O.ind d (x a) ∧
    |d - O.ham (lam a) (x a)| ≤ 2 * ε + η * (O.controls.map fun u => |x b u - x a u|).sum
  stop_time : ∃ d, HasPartial (lagrange O.costTerminal O.terminal ν₁) O.ind d (x b) ∧ |d + O.ham (lam b) (x b)| ≤ 2 * ε

/-- All conditions in a list hold up to `ε` at `σ`. -/
def Nearly (U : Name → Nat → ℝ → ℝ) (ε : ℝ) (σ : Env) (cons : List Con) : Prop :=
  ∀ c ∈ cons, |Expr.eval (Expr.real U) σ c.expr| ≤ ε

/-- A solution of a boundary value problem over `[a, b]`: the states follow their rates, all other symbols except
quadratures, controls and the independent variable are constant, the controls are given by one of the options of the control
law, and the boundary conditions hold. -/
structure Solves (U : Name → Nat → ℝ → ℝ) (p : Prob) (a b : ℝ) (ρ : ℝ → Env) : Prop where
  follows : Follows U p.states 1 a b ρ
  fixed : ∀ s, s ∉ p.states.map Dyn.name → s ∉ p.quads.map Dyn.name → s ∉ p.controls → s ≠ p.ind → Moves a b ρ 0 s
  law : p.controls ≠ [] → ∀ t ∈ Set.Icc a b, ∃ opt ∈ p.controlLaw,
    List.Forall₂ (fun u e => ρ t u = Expr.eval (Expr.real U) (ρ t) e) p.controls opt
  initial : Holds U (ρ a) p.initial
  terminal : Holds U (ρ b) p.terminal

/-- A solution of a boundary value problem whose boundary conditions hold up to `ε`. -/
structure NearlySolves (U : Name → Nat → ℝ → ℝ) (p : Prob) (ε a b : ℝ) (ρ : ℝ → Env) : Prop where
  follows : Follows U p.states 1 a b ρ
  fixed : ∀ s, s ∉ p.states.map Dyn.name → s ∉ p.quads.map Dyn.name → s ∉ p.controls → s ≠ p.ind → Moves a b ρ 0 s
  law : p.controls ≠ [] → ∀ t ∈ Set.Icc a b, ∃ opt ∈ p.controlLaw,
    List.Forall₂ (fun u e => ρ t u = Expr.eval (Expr.real U) (ρ t) e) p.controls opt
  initial : Nearly U ε (ρ a) p.initial
  terminal : Nearly U ε (ρ b) p.terminal

/-- What sympy's `solve` promises: where a solution is defined and the unknowns have the values it gives, the equations
hold. -/
def SolveSound (S : Sympy) : Prop :=
  ∀ (U : Name → Nat → ℝ → ℝ) (eqs : List Expr) (syms : List Name), ∀ sol ∈ S.solve eqs syms, ∀ σ : Env,
    (∀ x ∈ syms, ∃ e, sol.lookup x = some e ∧ Expr.Defined (Expr.real U) σ e ∧ σ x = Expr.eval (Expr.real U) σ e) →
    ∀ e ∈ eqs, Expr.eval (Expr.real U) σ e = 0

theorem nearly_zero {U : Name → Nat → ℝ → ℝ} {σ : Env} {cons : List Con} : Nearly U 0 σ cons ↔ Holds U σ cons := by
  simp only [Nearly, Holds, abs_nonpos_iff]

/-- Without tolerance these are the solutions. -/
theorem nearlySolves_zero {U : Name → Nat → ℝ → ℝ} {p : Prob} {a b : ℝ} {ρ : ℝ → Env} :
    NearlySolves U p 0 a b ρ ↔ Solves U p a b ρ :=
  ⟨fun h => ⟨h.follows, h.fixed, h.law, nearly_zero.1 h.initial, nearly_zero.1 h.terminal⟩,
    fun h => ⟨h.follows, h.fixed, h.law, nearly_zero.2 h.initial, nearly_zero.2 h.terminal⟩⟩

/-- Without tolerance these are the extremals. -/
theorem nearExtremal_zero {O : Ocp} {a b : ℝ} {x : ℝ → Env} {lam : ℝ → Name → ℝ} {ν₀ ν₁ : Nat → ℝ} :
    NearExtremal O 0 0 a b x lam ν₀ ν₁ ↔ Extremal O a b x lam ν₀ ν₁ := by
  constructor
  · intro h
    refine ⟨h.time, h.fixed, h.motion, h.adjoint, ?_, ?_, ?_, ?_, ?_, ?_, ?_⟩
    · intro u hu t ht
      obtain ⟨r, h1, h2⟩ := h.stationary u hu
      rw [abs_nonpos_iff.1 h1] at h2
      exact h2 t ht
    · exact fun c hc => abs_nonpos_iff.1 (h.initial c hc)
    · exact fun c hc => abs_nonpos_iff.1 (h.terminal c hc)
    · intro r hr
      obtain ⟨d, h1, h2⟩ := h.start r hr
      rwa [eq_neg_of_add_eq_zero_left (abs_nonpos_iff.1 h2)] at h1
    · intro r hr
      obtain ⟨d, h1, h2⟩ := h.stop r hr
      rwa [sub_eq_zero.1 (abs_nonpos_iff.1 h2)] at h1
    · obtain ⟨d, h1, h2⟩ := h.start_time
      rw [mul_zero, zero_mul, add_zero] at h2
      rwa [sub_eq_zero.1 (abs_nonpos_iff.1 h2)] at h1
    · obtain ⟨d, h1, h2⟩ := h.stop_time
      rw [mul_zero] at h2
      rwa [eq_neg_of_add_eq_zero_left (abs_nonpos_iff.1 h2)] at h1
  · intro h
    refine ⟨h.time, h.fixed, h.motion, h.adjoint, ?_, ?_, ?_, ?_, ?_, ?_, ?_⟩
    · exact fun u hu => ⟨0, by simp, h.stationary u hu⟩
    · exact fun c hc => abs_nonpos_iff.2 (h.initial c hc)
    · exact fun c hc => abs_nonpos_iff.2 (h.terminal c hc)
    · exact fun r hr => ⟨_, h.start r hr, by simp⟩
    · exact fun r hr => ⟨_, h.stop r hr, by simp⟩
    · exact ⟨_, h.start_time, by simp⟩
    · exact ⟨_, h.stop_time, by simp⟩

end Beluga.Opt
