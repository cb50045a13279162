import Verif.Extremal.StillProps
import Verif.Extremal.Sufficient

/-! # Problems with a parameter to be optimised: the generated boundary value problem is wrong with `NormalizeTime` (C64) -/

namespace Beluga.Opt

open Beluga.Sym Beluga.Sym.Expr

/-! ### Specification -/

/-- The optimal control problem in which the parameters are chosen as well: a parameter is a state that does not change. -/
def Ocp.withParameters (O : Ocp) (ps : List Name) : Ocp := { O with rates := O.rates ++ ps.map fun n => (n, fun _ => 0) }

/-! ### The case

Minimise `∫ (u² + p²) dt - 4 p` with `x' = u`, from `x = 0` at `t = 0` to `x = 2` at `t = 2`, by the control `u` and the
parameter `p`.  The cost with `u = 1` is `2 (1 + p²) - 4 p`, hence `p = 1` is best. -/

def paP : Prob := {
  ind := "t"
  states := [⟨"x", sym "u"⟩]
  controls := ["u"]
  parameters := ["p"]
  costPath := sym "u" * sym "u" + sym "p" * sym "p"
  costTerminal := num (-4) * sym "p"
  initial := [{ expr := sym "x" }, { expr := sym "t" }]
  terminal := [{ expr := sym "x" - num 2 }, { expr := sym "t" - num 2 }] }

def paH : Expr := hamiltonianOf (sym "u" * sym "u" + sym "p" * sym "p") [⟨"x", sym "u"⟩, ⟨"t", 1⟩]

/-- A solver that knows one equation. -/
def paS : Sympy where
  solve eqs syms := if eqs = [paH.diff "u"] ∧ syms = ["u"] then [[("u", -(sym "_lam_x") / 2)]] else []
  lu := cramerLu
  integrate _ _ := 0

def paO : Opts := { controlMethod := .algebraic }

theorem pa_stated : Stated { paP with parameters := [], constants := ["p"] } where
  costates := rfl
  coparameters := rfl
  parameters := rfl
  quads := rfl
  law := rfl
  acyclic := ⟨fun _ => 0, by decide⟩
  reg := ⟨rfl, by decide, by decide, by decide, by simp [paP], by decide, by decide⟩
  inside := by decide
  ends := by decide
  bounds := by simp [paP]
  flat := by simp [paP]
  names := by decide
  trig := by decide +kernel
  plain := by decide +kernel
  free := by decide +kernel
  ind := by decide +kernel

theorem paS_sound : SolveSound paS := by
  intro U eqs syms sol hs σ hσ e he
  simp only [paS] at hs
  split at hs
  · next hc =>
    obtain ⟨rfl, rfl⟩ := hc
    simp only [List.mem_singleton] at hs
    subst hs
    obtain ⟨e', h1, -, h3⟩ := hσ "u" (by simp)
    cases h1
    simp only [List.mem_singleton] at he
    subst he
    simp [paH, hamiltonianOf, diff, eval, lamName] at h3 ⊢
    rw [h3]
    ring
  · cases hs

def paP' : Prob := match indirect paS paO paP with
  | .ok p => p
  | .error _ => {}

theorem paP'_ok : indirect paS paO paP = .ok paP' := by
  have : (match indirect paS paO paP with | .ok _ => true | .error _ => false) = true := by decide +kernel
  rw [paP']
  cases h : indirect paS paO paP with
  | ok p => rfl
  | error e => rw [h] at this; cases this

theorem paP'_fields : paP'.states = [⟨"x", sym "u" * sym "_delta_t"⟩, ⟨"t", 1 * sym "_delta_t"⟩,
      ⟨"_lam_x", -(paH.diff "x") * sym "_delta_t"⟩, ⟨"_lam_t", -(paH.diff "t") * sym "_delta_t"⟩] ∧
    paP'.quads = [⟨"_lam_p", -(paH.diff "p")⟩] ∧
    paP'.initial.map Con.expr = [sym "x", sym "t",
      sym "_lam_x" + (0 + sym "_nu_0_0" * sym "x" + sym "_nu_0_1" * sym "t").diff "x",
      sym "_lam_t" + (0 + sym "_nu_0_0" * sym "x" + sym "_nu_0_1" * sym "t").diff "t",
      sym "_lam_p" + (0 + sym "_nu_0_0" * sym "x" + sym "_nu_0_1" * sym "t").diff "p"] ∧
    paP'.terminal.map Con.expr = [sym "x" - num 2, sym "t" - num 2,
      sym "_lam_x" - (num (-4) * sym "p" + sym "_nu_f_0" * (sym "x" + num (-1) * num 2) + sym "_nu_f_1" * (sym "t" + num (-1) * num 2)).diff "x",
      sym "_lam_t" - (num (-4) * sym "p" + sym "_nu_f_0" * (sym "x" + num (-1) * num 2) + sym "_nu_f_1" * (sym "t" + num (-1) * num 2)).diff "t",
      sym "_lam_p" - (num (-4) * sym "p" + sym "_nu_f_0" * (sym "x" + num (-1) * num 2) + sym "_nu_f_1" * (sym "t" + num (-1) * num 2)).diff "p",
      (num (-4) * sym "p" + sym "_nu_f_0" * (sym "x" + num (-1) * num 2) + sym "_nu_f_1" * (sym "t" + num (-1) * num 2)).diff "_t" + paH] ∧
    paP'.controls = ["u"] ∧ paP'.controlLaw = [[-(sym "_lam_x") / 2]] ∧ paP'.ind = "_tau" := by
  decide +kernel

/-- The solution of the generated boundary value problem, with the parameter `2`. -/
def paCurve (τ : ℝ) (s : Name) : ℝ :=
  if s = "_tau" then τ else if s = "x" ∨ s = "t" then 2 * τ else if s = "_lam_p" then -4 * τ
  else if s = "u" then 1 else if s = "p" ∨ s = "_delta_t" ∨ s = "_nu_0_0" then 2
  else if s = "_lam_x" ∨ s = "_nu_f_0" then -2 else if s = "_lam_t" ∨ s = "_nu_f_1" then -3
  else if s = "_nu_0_1" then 3 else 0

theorem paCurve_const (s : Name) (h : s ≠ "_tau") (h2 : s ≠ "x") (h3 : s ≠ "t") (h4 : s ≠ "_lam_p") : Moves 0 1 paCurve 0 s := by
  intro t _
  have : (fun τ => paCurve τ s) = fun _ => paCurve 0 s := by
    funext τ
    simp [paCurve, h, h2, h3, h4]
  rw [this]
  exact hasDerivAt_const _ _

theorem paCurve_line (s : Name) (h : s = "x" ∨ s = "t") (t : ℝ) : HasDerivAt (fun τ => paCurve τ s) 2 t := by
  have e : (fun τ => paCurve τ s) = fun τ => 2 * τ := by
    funext τ
    rcases h with rfl | rfl <;> simp [paCurve]
  rw [e]
  exact ((hasDerivAt_id t).const_mul 2).congr_deriv (by simp)

theorem paSolves (U : Name → Nat → ℝ → ℝ) : Solves U paP' 0 1 paCurve where
  follows := by
    intro t ht d hd
    rw [paP'_fields.1] at hd
    simp only [List.mem_cons, List.not_mem_nil, or_false] at hd
    rcases hd with rfl | rfl | rfl | rfl
    · simpa [eval, paCurve] using paCurve_line "x" (by simp) t
    · simpa [eval, paCurve] using paCurve_line "t" (by simp) t
    · have := paCurve_const "_lam_x" (by decide) (by decide) (by decide) (by decide) t ht
      simpa [eval, diff, paCurve, paH, hamiltonianOf, lamName] using this
    · have := paCurve_const "_lam_t" (by decide) (by decide) (by decide) (by decide) t ht
      simpa [eval, diff, paCurve, paH, hamiltonianOf, lamName] using this
  fixed := by
    intro s h1 h2 h3 h4
    rw [paP'_fields.1] at h1
    rw [paP'_fields.2.1] at h2
    rw [paP'_fields.2.2.2.2.2.2] at h4
    simp only [List.map_cons, List.map_nil, List.mem_cons, List.not_mem_nil, or_false, not_or] at h1 h2
    exact paCurve_const s h4 h1.1 h1.2.1 h2
  law := by
    intro _ t _
    rw [paP'_fields.2.2.2.2.1, paP'_fields.2.2.2.2.2.1]
    refine ⟨_, List.mem_singleton_self _, ?_⟩
    simp [eval, paCurve]
  initial := by
    intro c hc
    have : c.expr ∈ paP'.initial.map Con.expr := List.mem_map.2 ⟨c, hc, rfl⟩
    rw [paP'_fields.2.2.1] at this
    simp only [List.mem_cons, List.not_mem_nil, or_false] at this
    rcases this with h | h | h | h | h <;> rw [h] <;> simp [eval, diff, paCurve]
  terminal := by
    intro c hc
    have : c.expr ∈ paP'.terminal.map Con.expr := List.mem_map.2 ⟨c, hc, rfl⟩
    rw [paP'_fields.2.2.2.1] at this
    simp only [List.mem_cons, List.not_mem_nil, or_false] at this
    rcases this with h | h | h | h | h | h <;> rw [h] <;> simp [eval, diff, paCurve, paH, hamiltonianOf, lamName]
    norm_num

theorem paQuads (U : Name → Nat → ℝ → ℝ) : Follows U paP'.quads 1 0 1 paCurve := by
  intro t _ d hd
  rw [paP'_fields.2.1] at hd
  simp only [List.mem_singleton] at hd
  subst hd
  have e : (fun τ => paCurve τ "_lam_p") = fun τ => -4 * τ := by funext τ; simp [paCurve]
  have : HasDerivAt (fun τ => paCurve τ "_lam_p") (-4) t := by
    rw [e]
    exact ((hasDerivAt_id t).const_mul (-4)).congr_deriv (by simp)
  refine this.congr_deriv ?_
  simp [eval, diff, paCurve, paH, hamiltonianOf, lamName]
  norm_num

/-- The code is wrong for problems with parameters: `NormalizeTime` multiplies the rates of the states and the costates by the
duration but not those of the coparameters (mapping_functions.py:700-703), while the boundary conditions stay.  Here is a problem with one parameter,
otherwise as documented, and the default options except for algebraic control, where the generated boundary value problem
has a solution over two units of time that is no extremal, for no costates and multipliers, and another value of the parameter has
lower cost with the same control. -/
theorem C64_violated_parameters : ∃ S o p p', SolveSound S ∧ o = { controlMethod := .algebraic } ∧ p.parameters = ["p"] ∧
    Stated { p with parameters := [], constants := ["p"] } ∧ indirect S o p = .ok p' ∧ ∀ U B,
      ∃ ρ, Solves U p' 0 1 ρ ∧ Follows U p'.quads 1 0 1 ρ ∧ (∀ τ, ρ τ "t" = 2 * τ) ∧
        (∀ lam ν₀ ν₁, ¬ Extremal ((userOcp U id B p).withParameters ["p"]) 0 2 (fun s => ρ (s / 2)) lam ν₀ ν₁) ∧
        ∃ v, Admissible ((userOcp U id B p).withParameters ["p"]) 0 2 (fun s => ρ (s / 2)) (fun s => Function.update (ρ (s / 2)) "p" v) ∧
          ((userOcp U id B p).withParameters ["p"]).cost 0 2 (fun s => Function.update (ρ (s / 2)) "p" v) <
            ((userOcp U id B p).withParameters ["p"]).cost 0 2 (fun s => ρ (s / 2)) := by
  refine ⟨paS, paO, paP, paP', paS_sound, rfl, rfl, pa_stated, paP'_ok, fun U B => ⟨paCurve, paSolves U, paQuads U,
    fun τ => by simp [paCurve], ?_, 1, ?_, ?_⟩⟩
  · intro lam ν₀ ν₁ h
    have hham : ∀ l σ, ((userOcp U id B paP).withParameters ["p"]).ham l σ =
        σ "u" * σ "u" + σ "p" * σ "p" + l "x" * σ "u" := by
      intro l σ
      simp [Ocp.ham, Ocp.withParameters, userOcp, paP, penalties, eval]
    have hl : ∀ t ∈ Set.Icc (0 : ℝ) 2, HasDerivAt (fun τ => lam τ "p") (-4) t := by
      intro t ht
      obtain ⟨d, h1, h2⟩ := h.adjoint ("p", fun _ => 0) (by simp [Ocp.withParameters]) t ht
      rw [HasPartial] at h1
      simp only [hham] at h1
      have h3 : HasDerivAt (fun v : ℝ => 1 * 1 + v * v + lam t "x" * 1) d 2 := by simpa [paCurve] using h1
      have h4 : HasDerivAt (fun v : ℝ => 1 * 1 + v * v + lam t "x" * 1) 4 2 := by
        have := ((((hasDerivAt_id (2 : ℝ)).mul (hasDerivAt_id (2 : ℝ))).const_add (1 * 1)).add_const (lam t "x" * 1))
        exact this.congr_deriv (by norm_num)
      rw [h3.unique h4] at h2
      exact h2
    have h0 : lam 0 "p" = 0 := by
      have h1 := h.start ("p", fun _ => 0) (by simp [Ocp.withParameters])
      rw [HasPartial] at h1
      have h2 := h1.unique ((hasDerivAt_const (2 : ℝ) (0 : ℝ)).congr_of_eventuallyEq (.of_forall fun v => ?_))
      · simpa using h2
      · simp [lagrange, Ocp.withParameters, userOcp, paP, penalties, eval, paCurve, Con.twoSided]
    have h2 : lam 2 "p" = -4 := by
      have h1 := h.stop ("p", fun _ => 0) (by simp [Ocp.withParameters])
      rw [HasPartial] at h1
      refine h1.unique ((((hasDerivAt_id (2 : ℝ)).const_mul (-4)).congr_deriv (by norm_num)).congr_of_eventuallyEq (.of_forall fun v => ?_))
      simp [lagrange, Ocp.withParameters, userOcp, paP, penalties, eval, paCurve, Con.twoSided]
    have hc := (convex_Icc (0 : ℝ) 2).is_const_of_fderivWithin_eq_zero (𝕜 := ℝ) (f := fun t => lam t "p" + 4 * t)
      (fun t ht => (((hl t ht).add ((hasDerivAt_id t).const_mul 4)).differentiableAt).differentiableWithinAt) ?_
      (Set.left_mem_Icc.2 (by norm_num)) (Set.right_mem_Icc.2 (by norm_num))
    · rw [h0, h2] at hc
      norm_num at hc
    · intro t ht
      have h5 : HasDerivAt (fun t => lam t "p" + 4 * t) 0 t :=
        ((hl t ht).add ((hasDerivAt_id t).const_mul 4)).congr_deriv (by norm_num)
      have := h5.hasDerivWithinAt.hasFDerivWithinAt.fderivWithin (uniqueDiffOn_Icc (by norm_num : (0 : ℝ) < 2) t ht)
      rw [this]
      ext
      simp
  · have hx : ∀ t : ℝ, HasDerivAt (fun τ => paCurve (τ / 2) "x") 1 t := by
      intro t
      have e : (fun τ : ℝ => paCurve (τ / 2) "x") = fun τ => τ := by funext τ; simp [paCurve]; ring
      rw [e]
      exact hasDerivAt_id t
    have hr : ∀ r ∈ ((userOcp U id B paP).withParameters ["p"]).rates, ∀ t : ℝ,
        HasDerivAt (fun τ => Function.update (paCurve (τ / 2)) "p" 1 r.1) (r.2 (Function.update (paCurve (t / 2)) "p" 1)) t := by
      intro r hr t
      simp only [Ocp.withParameters, userOcp, paP, List.map_cons, List.map_nil, List.cons_append, List.nil_append, List.mem_cons,
        List.not_mem_nil, or_false] at hr
      rcases hr with rfl | rfl
      · simpa [eval, paCurve] using hx t
      · simpa using hasDerivAt_const t (1 : ℝ)
    exact {
      others := by
        intro t _ s hs
        have : s ≠ "p" := by
          rintro rfl
          exact hs (by simp [Ocp.states, Ocp.withParameters])
        simp [this]
      continuous := fun r h t _ => (hr r h t).continuousAt.continuousWithinAt
      motion := fun r h t _ => (hr r h t).hasDerivWithinAt
      initial := by
        intro c hc
        simp [Ocp.withParameters, userOcp, paP, Con.twoSided] at hc
        rcases hc with rfl | rfl <;> simp [eval, paCurve]
      terminal := by
        intro c hc
        simp [Ocp.withParameters, userOcp, paP, Con.twoSided] at hc
        rcases hc with rfl | rfl <;> simp [eval, paCurve]
      cost := by
        have : (fun t : ℝ => ((userOcp U id B paP).withParameters ["p"]).path (Function.update (paCurve (t / 2)) "p" 1)) =
            fun _ => 2 := by
          funext t
          simp [Ocp.withParameters, userOcp, paP, penalties, eval, paCurve]
          norm_num
        rw [this]
        exact (continuous_const.integrableOn_Icc) }
  · simp [Ocp.cost, Ocp.withParameters, userOcp, paP, penalties, eval, paCurve, Con.twoSided]
    norm_num

end Beluga.Opt
