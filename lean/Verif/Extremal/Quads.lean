import Verif.Extremal.StillProps
import Verif.Extremal.Sufficient

/-! # Problems with quadratures: the generated boundary value problem is wrong if a boundary cost contains one (C64) -/

namespace Beluga.Opt

open Beluga.Sym Beluga.Sym.Expr

/-! ### Specification -/

/-- The optimal control problem with quadratures: a quadrature is a state that no rate depends on. -/
noncomputable def Ocp.withQuads (O : Ocp) (U : Name → Nat → ℝ → ℝ) (qs : List Dyn) : Ocp :=
  { O with rates := O.rates ++ qs.map fun d => (d.name, fun σ => eval (real U) σ d.eom) }

/-! ### The case

Minimise `∫ u² dt - q(1)` with `x' = u`, `q' = x`, from `x = q = 0` at `t = 0` to `t = 1`.  The cost with `u = 1/4` is `-1/16`. -/

def quP : Prob := {
  ind := "t"
  states := [⟨"x", sym "u"⟩]
  quads := [⟨"q", sym "x"⟩]
  controls := ["u"]
  costPath := sym "u" * sym "u"
  costTerminal := num (-1) * sym "q"
  initial := [{ expr := sym "x" }, { expr := sym "q" }, { expr := sym "t" }]
  terminal := [{ expr := sym "t" - num 1 }] }

def quH : Expr := hamiltonianOf (sym "u" * sym "u") [⟨"x", sym "u"⟩, ⟨"t", 1⟩]

/-- A solver that knows one equation. -/
def quS : Sympy where
  solve eqs syms := if eqs = [quH.diff "u"] ∧ syms = ["u"] then [[("u", -(sym "_lam_x") / 2)]] else []
  lu := cramerLu
  integrate _ _ := 0

def quO : Opts := { controlMethod := .algebraic }

theorem quS_sound : SolveSound quS := by
  intro U eqs syms sol hs σ hσ e he
  simp only [quS] at hs
  split at hs
  · next hc =>
    obtain ⟨rfl, rfl⟩ := hc
    simp only [List.mem_singleton] at hs
    subst hs
    obtain ⟨e', h1, -, h3⟩ := hσ "u" (by simp)
    cases h1
    simp only [List.mem_singleton] at he
    subst he
    simp [quH, hamiltonianOf, diff, eval, lamName] at h3 ⊢
    rw [h3]
    ring
  · cases hs

theorem qu_stated : Stated { quP with quads := [], constants := ["q"] } where
  costates := rfl
  coparameters := rfl
  parameters := rfl
  quads := rfl
  law := rfl
  acyclic := ⟨fun _ => 0, by decide⟩
  reg := ⟨rfl, by decide, by decide, by decide, by simp [quP], by decide, by decide⟩
  inside := by decide
  ends := by decide
  bounds := by simp [quP]
  flat := by simp [quP]
  names := by decide
  trig := by decide +kernel
  plain := by decide +kernel
  free := by decide +kernel
  ind := by decide +kernel

def quP' : Prob := match indirect quS quO quP with
  | .ok p => p
  | .error _ => {}

theorem quP'_ok : indirect quS quO quP = .ok quP' := by
  have : (match indirect quS quO quP with | .ok _ => true | .error _ => false) = true := by decide +kernel
  rw [quP']
  cases h : indirect quS quO quP with
  | ok p => rfl
  | error e => rw [h] at this; cases this

theorem quP'_fields : quP'.states = [⟨"x", sym "u" * sym "_delta_t"⟩, ⟨"t", 1 * sym "_delta_t"⟩,
      ⟨"_lam_x", -(quH.diff "x") * sym "_delta_t"⟩, ⟨"_lam_t", -(quH.diff "t") * sym "_delta_t"⟩] ∧
    quP'.quads = [⟨"q", sym "x"⟩] ∧
    quP'.initial.map Con.expr = [sym "x", sym "q", sym "t",
      sym "_lam_x" + (0 + sym "_nu_0_0" * sym "x" + sym "_nu_0_1" * sym "q" + sym "_nu_0_2" * sym "t").diff "x",
      sym "_lam_t" + (0 + sym "_nu_0_0" * sym "x" + sym "_nu_0_1" * sym "q" + sym "_nu_0_2" * sym "t").diff "t"] ∧
    quP'.terminal.map Con.expr = [sym "t" - num 1,
      sym "_lam_x" - (num (-1) * sym "q" + sym "_nu_f_0" * (sym "t" + num (-1) * num 1)).diff "x",
      sym "_lam_t" - (num (-1) * sym "q" + sym "_nu_f_0" * (sym "t" + num (-1) * num 1)).diff "t",
      (num (-1) * sym "q" + sym "_nu_f_0" * (sym "t" + num (-1) * num 1)).diff "_t" + quH] ∧
    quP'.controls = ["u"] ∧ quP'.controlLaw = [[-(sym "_lam_x") / 2]] ∧ quP'.ind = "_tau" := by
  decide +kernel

/-- The solution of the generated boundary value problem: do nothing. -/
def quCurve (τ : ℝ) (s : Name) : ℝ := if s = "_tau" ∨ s = "t" then τ else if s = "_delta_t" then 1 else 0

/-- Every solution of the generated boundary value problem does nothing. -/
theorem qu_only {U : Name → Nat → ℝ → ℝ} {ρ : ℝ → Env} (h : Solves U quP' 0 1 ρ) : ∀ t ∈ Set.Icc (0 : ℝ) 1, ρ t "u" = 0 := by
  have hl : ∀ t ∈ Set.Icc (0 : ℝ) 1, HasDerivAt (fun τ => ρ τ "_lam_x") 0 t := by
    intro t ht
    have := h.follows t ht ⟨"_lam_x", -(quH.diff "x") * sym "_delta_t"⟩ (by rw [quP'_fields.1]; simp)
    simpa [eval, diff, quH, hamiltonianOf, lamName] using this
  have h1 : ρ 1 "_lam_x" = 0 := by
    have hc : sym "_lam_x" - (num (-1) * sym "q" + sym "_nu_f_0" * (sym "t" + num (-1) * num 1)).diff "x" ∈ quP'.terminal.map Con.expr := by
      rw [quP'_fields.2.2.2.1]; simp
    obtain ⟨c, hm, he⟩ := List.mem_map.1 hc
    have := h.terminal c hm
    rw [he] at this
    simpa [eval, diff] using this
  intro t ht
  obtain ⟨opt, ho, hf⟩ := h.law (by rw [quP'_fields.2.2.2.2.1]; simp) t ht
  rw [quP'_fields.2.2.2.2.2.1, List.mem_singleton] at ho
  subst ho
  rw [quP'_fields.2.2.2.2.1] at hf
  have h2 := (List.forall₂_cons.1 hf).1
  rw [h2]
  have h3 := eq_end_of_deriv_zero hl t ht
  simp [eval, h3, h1]

theorem quSolves (U : Name → Nat → ℝ → ℝ) : Solves U quP' 0 1 quCurve where
  follows := by
    intro t ht d hd
    rw [quP'_fields.1] at hd
    simp only [List.mem_cons, List.not_mem_nil, or_false] at hd
    rcases hd with rfl | rfl | rfl | rfl
    · simpa [eval, quCurve] using hasDerivAt_const t (0 : ℝ)
    · simpa [eval, quCurve] using hasDerivAt_id' t
    · simpa [eval, diff, quCurve, quH, hamiltonianOf, lamName] using hasDerivAt_const t (0 : ℝ)
    · simpa [eval, diff, quCurve, quH, hamiltonianOf, lamName] using hasDerivAt_const t (0 : ℝ)
  fixed := by
    intro s h1 _ _ h4 t _
    rw [quP'_fields.1] at h1
    rw [quP'_fields.2.2.2.2.2.2] at h4
    simp only [List.map_cons, List.map_nil, List.mem_cons, List.not_mem_nil, or_false, not_or] at h1
    have : (fun τ => quCurve τ s) = fun _ => quCurve 0 s := by
      funext τ
      simp [quCurve, h4, h1]
    rw [this]
    exact hasDerivAt_const _ _
  law := by
    intro _ t _
    rw [quP'_fields.2.2.2.2.1, quP'_fields.2.2.2.2.2.1]
    refine ⟨_, List.mem_singleton_self _, ?_⟩
    simp [eval, quCurve]
  initial := by
    intro c hc
    have : c.expr ∈ quP'.initial.map Con.expr := List.mem_map.2 ⟨c, hc, rfl⟩
    rw [quP'_fields.2.2.1] at this
    simp only [List.mem_cons, List.not_mem_nil, or_false] at this
    rcases this with h | h | h | h | h <;> rw [h] <;> simp [eval, diff, quCurve]
  terminal := by
    intro c hc
    have : c.expr ∈ quP'.terminal.map Con.expr := List.mem_map.2 ⟨c, hc, rfl⟩
    rw [quP'_fields.2.2.2.1] at this
    simp only [List.mem_cons, List.not_mem_nil, or_false] at this
    rcases this with h | h | h | h <;> rw [h] <;> simp [eval, diff, quCurve, quH, hamiltonianOf, lamName]

theorem quQuads (U : Name → Nat → ℝ → ℝ) : Follows U quP'.quads 1 0 1 quCurve := by
  intro t _ d hd
  rw [quP'_fields.2.1] at hd
  simp only [List.mem_singleton] at hd
  subst hd
  simpa [eval, quCurve] using hasDerivAt_const t (0 : ℝ)

/-- A better trajectory. -/
noncomputable def quBetter (t : ℝ) (s : Name) : ℝ :=
  if s = "x" then t / 4 else if s = "q" then t ^ 2 / 8 else if s = "u" then 1 / 4 else quCurve t s

/-- The code is wrong for problems with quadratures: `Dualize` makes no costates for them ("TODO Check if quads need costates",
mapping_functions.py:330-341), so that a boundary cost or condition on a quadrature acts on nothing.  Here is a problem with one
quadrature, otherwise as documented, and the default options except for algebraic control.  The generated boundary value problem
has a solution, in each of its solutions the control is zero, and none of them is an extremal, for no costates and multipliers;
the one given here is not optimal either. -/
theorem C64_violated_quads : ∃ S o p p', SolveSound S ∧ o = { controlMethod := .algebraic } ∧ p.quads = [⟨"q", sym "x"⟩] ∧
    Stated { p with quads := [], constants := ["q"] } ∧ indirect S o p = .ok p' ∧ ∀ U B,
      (∃ ρ, Solves U p' 0 1 ρ ∧ Follows U p'.quads 1 0 1 ρ ∧ (∀ τ, ρ τ "t" = τ) ∧
        ∃ z, Admissible ((userOcp U id B p).withQuads U p.quads) 0 1 ρ z ∧
          ((userOcp U id B p).withQuads U p.quads).cost 0 1 z < ((userOcp U id B p).withQuads U p.quads).cost 0 1 ρ) ∧
      ∀ ρ, Solves U p' 0 1 ρ → ∀ lam ν₀ ν₁, ¬ Extremal ((userOcp U id B p).withQuads U p.quads) 0 1 ρ lam ν₀ ν₁ := by
  refine ⟨quS, quO, quP, quP', quS_sound, rfl, rfl, qu_stated, quP'_ok, fun U B => ⟨⟨quCurve, quSolves U, quQuads U,
    fun τ => by simp [quCurve], quBetter, ?_, ?_⟩, ?_⟩⟩
  · have hr : ∀ r ∈ ((userOcp U id B quP).withQuads U quP.quads).rates, ∀ t : ℝ,
        HasDerivAt (fun τ => quBetter τ r.1) (r.2 (quBetter t)) t := by
      intro r hr t
      simp only [Ocp.withQuads, userOcp, quP, List.map_cons, List.map_nil, List.cons_append, List.nil_append, List.mem_cons,
        List.not_mem_nil, or_false] at hr
      rcases hr with rfl | rfl
      · simpa [eval, quBetter] using (hasDerivAt_id' t).div_const 4
      · have := (hasDerivAt_pow 2 t).div_const (8 : ℝ)
        simp only [quBetter, eval]
        refine this.congr_deriv ?_
        norm_num
        ring
    exact {
      others := by
        intro t _ s hs
        simp only [Ocp.states, Ocp.withQuads, userOcp, quP, epsControls, List.map_cons, List.map_nil, List.cons_append, List.nil_append,
          List.mem_cons, List.not_mem_nil, or_false, not_or] at hs
        obtain ⟨h1, h2, h3⟩ := hs
        simp at h3
        simp [quBetter, h1, h2, h3]
      continuous := fun r h t _ => (hr r h t).continuousAt.continuousWithinAt
      motion := fun r h t _ => (hr r h t).hasDerivWithinAt
      initial := by
        intro c hc
        simp [Ocp.withQuads, userOcp, quP, Con.twoSided] at hc
        rcases hc with rfl | rfl | rfl <;> simp [eval, quBetter, quCurve]
      terminal := by
        intro c hc
        simp [Ocp.withQuads, userOcp, quP, Con.twoSided] at hc
        subst hc
        simp [eval, quBetter, quCurve]
      cost := by
        have : (fun t : ℝ => ((userOcp U id B quP).withQuads U quP.quads).path (quBetter t)) = fun _ => 1 / 16 := by
          funext t
          simp [Ocp.withQuads, userOcp, quP, penalties, eval, quBetter]
          norm_num
        rw [this]
        exact (continuous_const.integrableOn_Icc) }
  · simp [Ocp.cost, Ocp.withQuads, userOcp, quP, penalties, eval, quBetter, quCurve, Con.twoSided]
    norm_num
  · intro ρ hρ lam ν₀ ν₁ h
    have hu := qu_only hρ
    have hham : ∀ l σ, ((userOcp U id B quP).withQuads U quP.quads).ham l σ = σ "u" * σ "u" + (l "x" * σ "u" + l "q" * σ "x") := by
      intro l σ
      simp [Ocp.ham, Ocp.withQuads, userOcp, quP, penalties, eval]
    -- stationarity
    have hx : ∀ t ∈ Set.Icc (0 : ℝ) 1, lam t "x" = 0 := by
      intro t ht
      have h1 := h.stationary "u" (by simp [Ocp.withQuads, userOcp, quP, epsControls]) t ht
      rw [HasPartial] at h1
      simp only [hham, hu t ht] at h1
      have h2 : HasDerivAt (fun v : ℝ => v * v + (lam t "x" * v + lam t "q" * ρ t "x")) 0 0 := by simpa using h1
      have h3 : HasDerivAt (fun v : ℝ => v * v + (lam t "x" * v + lam t "q" * ρ t "x")) (lam t "x") 0 := by
        have := ((hasDerivAt_id' (0 : ℝ)).mul (hasDerivAt_id' (0 : ℝ))).add
          (((hasDerivAt_id' (0 : ℝ)).const_mul (lam t "x")).add_const (lam t "q" * ρ t "x"))
        exact this.congr_deriv (by ring)
      exact h3.unique h2
    -- the costate of the quadrature
    have hq : lam 1 "q" = -1 := by
      have h1 := h.stop ("q", fun σ => eval (real U) σ (sym "x")) (by simp [Ocp.withQuads, quP])
      rw [HasPartial] at h1
      refine h1.unique ((((hasDerivAt_id' (ρ 1 "q")).const_mul (-1 : ℝ)).add_const (ν₁ 0 * (ρ 1 "t" - 1))).congr_deriv (by norm_num) |>.congr_of_eventuallyEq
        (.of_forall fun v => ?_))
      simp [lagrange, Ocp.withQuads, userOcp, quP, penalties, eval, Con.twoSided]
    obtain ⟨d, h1, h2⟩ := h.adjoint ("x", fun σ => eval (real U) σ (sym "u")) (by simp [Ocp.withQuads, userOcp, quP]) 1
      (Set.right_mem_Icc.2 zero_le_one)
    have hd : d = -1 := by
      rw [HasPartial] at h1
      simp only [hham] at h1
      refine h1.unique (((((hasDerivAt_id' (ρ 1 "x")).const_mul (lam 1 "q")).const_add (lam 1 "x" * ρ 1 "u")).const_add
        (ρ 1 "u" * ρ 1 "u")).congr_deriv (by rw [hq]; norm_num) |>.congr_of_eventuallyEq (.of_forall fun v => ?_))
      simp
    have hw : HasDerivWithinAt (fun τ => lam τ "x") 0 (Set.Icc 0 1) 1 :=
      (hasDerivWithinAt_const (1 : ℝ) (Set.Icc (0 : ℝ) 1) (0 : ℝ)).congr (fun t ht => hx t ht) (hx 1 (Set.right_mem_Icc.2 zero_le_one))
    have := (uniqueDiffOn_Icc (zero_lt_one' ℝ) 1 (Set.right_mem_Icc.2 zero_le_one)).eq_deriv _ (h2.hasDerivWithinAt) hw
    rw [hd] at this
    norm_num at this

end Beluga.Opt
