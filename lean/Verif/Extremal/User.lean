import Verif.Extremal.Pipeline
import Verif.Extremal.Tracks

/-! # The user's problem -/

namespace Beluga.Opt

open Beluga.Sym Beluga.Sym.Expr

/-! ### Specification -/

/-- The symbols that are defined in terms of others: quantities, switches, and controls bounded by 'epstrig'. -/
def definedNames (p : Prob) : List Name :=
  p.quantities.map Quantity.name ++ p.switches.map Switch.name ++ epsControls p.path

/-- The smoothed value of a switch: every condition counts its function with a sigmoid. -/
noncomputable def switchValue (U : Name → Nat → ℝ → ℝ) (σ : Env) (s : Switch) : ℝ :=
  ((s.functions.zip s.conditions).map fun fc =>
    (fc.2.map fun c => 1 / (1 + Real.exp (eval (real U) σ c / eval (real U) σ s.tol))).sum * eval (real U) σ fc.1).sum

/-- `Q` gives all defined symbols the values of their definitions and leaves the other symbols alone. -/
structure Completes (U : Name → Nat → ℝ → ℝ) (p : Prob) (Q : Env → Env) : Prop where
  off : ∀ σ, ∀ s, s ∉ definedNames p → Q σ s = σ s
  quantities : ∀ σ, ∀ d ∈ p.quantities, Q σ d.name = eval (real U) (Q σ) d.expr
  switches : ∀ σ, ∀ s ∈ p.switches, Q σ s.name = switchValue U (Q σ) s
  trig : ∀ σ, TrigEnv p U (Q σ)

/-- The optimal control problem that the user stated: two-sided constraints are replaced by penalties with the barrier
`B`, controls bounded by 'epstrig' are functions of new controls. -/
noncomputable def userOcp (U : Name → Nat → ℝ → ℝ) (Q : Env → Env) (B : ℝ → ℝ → ℝ → ℝ → ℝ) (p : Prob) : Ocp where
  ind := p.ind
  rates := p.states.map fun d => (d.name, fun σ => eval (real U) (Q σ) d.eom)
  controls := p.controls.map fun u => if u ∈ epsControls p.path then trigName u else u
  fixed := p.constants
  path := fun σ => eval (real U) (Q σ) p.costPath + penalties B U (Q σ) p.path
  costInitial := fun σ => eval (real U) (Q σ) p.costInitial + penalties B U (Q σ) p.initial
  costTerminal := fun σ => eval (real U) (Q σ) p.costTerminal + penalties B U (Q σ) p.terminal
  initial := (p.initial.filter fun c => !c.twoSided).map fun c σ => eval (real U) (Q σ) c.expr
  terminal := (p.terminal.filter fun c => !c.twoSided).map fun c σ => eval (real U) (Q σ) c.expr

/-- The names that the dual problem adds. -/
def Reserved (s : Name) : Prop :=
  (∃ n, s = "_lam_" ++ n) ∨ (∃ n, s = "_nu_0_" ++ n) ∨ (∃ n, s = "_nu_f_" ++ n) ∨ (∃ n, s = "_delta" ++ n) ∨ s = "_tau"

/-- A symbol that the user may use. -/
def Plain (p : Prob) (s : Name) : Prop := ¬ Reserved s ∧ s ≠ "_" ++ p.ind

/-- All expressions of the problem as stated. -/
def allExprs (p : Prob) : List Expr :=
  p.states.map Dyn.eom ++ (p.initial ++ p.path ++ p.terminal).flatMap (fun c => parts c ++ c.activator.toList) ++
    [p.costInitial, p.costPath, p.costTerminal] ++ p.quantities.map Quantity.expr ++
    p.switches.flatMap fun s => s.tol :: (s.functions ++ s.conditions.flatten)

/-- A problem as the documentation describes it, without parameters, quadratures, and one-sided constraints: definitions
are not circular, switches are used in equations only, bounds of controls are simple, path constraints are two-sided,
boundary constraints are two-sided or equalities, names are distinct, and no name is one that beluga makes up. -/
structure Stated (p : Prob) : Prop where
  costates : p.costates = []
  coparameters : p.coparameters = []
  parameters : p.parameters = []
  quads : p.quads = []
  law : p.controlLaw = []
  acyclic : Acyclic (defsQ p.quantities)
  reg : Regularisable p.controls { p with sympified := true }
  inside : ∀ c ∈ p.path, c.twoSided = true
  ends : ∀ c ∈ p.initial ++ p.terminal, c.twoSided = true ∨ c.lower = none ∧ c.upper = none
  bounds : ∀ c ∈ p.path, c.method = .epstrig → ∀ e ∈ c.activator.toList ++ c.lower.toList ++ c.upper.toList,
    ∀ s ∈ e.free, s ∉ p.quantities.map Quantity.name ++ p.switches.map Switch.name
  flat : (∀ d ∈ p.quantities, ∀ s ∈ d.expr.free, s ∉ p.switches.map Switch.name) ∧
    ∀ w ∈ p.switches, ∀ e ∈ w.tol :: (w.functions ++ w.conditions.flatten), ∀ s ∈ e.free, s ∉ p.switches.map Switch.name
  names : (p.states.map Dyn.name ++ [p.ind] ++ p.controls ++ p.constants ++ p.quantities.map Quantity.name ++
    p.switches.map Switch.name).Nodup
  trig : ∀ u ∈ p.controls, Plain p (trigName u) ∧ trigName u ∉ p.states.map Dyn.name ++ [p.ind] ++ p.controls ++
    p.constants ++ p.quantities.map Quantity.name ++ p.switches.map Switch.name
  plain : ∀ s ∈ p.states.map Dyn.name ++ [p.ind] ++ p.controls ++ p.constants, Plain p s
  free : ∀ e ∈ allExprs p, ∀ s ∈ e.free, Plain p s
  ind : ¬ Reserved ("_" ++ p.ind)

/-- The problem before the dual variables are added, as `indirect` makes it with `momentumShift`. -/
def primal (S : Sympy) (p : Prob) : Py Prob := do
  let p1 ← preprocess p
  let ineq ← ineqSteps (p1.initial ++ p1.path ++ p1.terminal)
  runSteps S (.momentumShift :: (ineq ++ if p1.switches.length > 0 then [.rashs] else [])) p1

/-! ### Lemmas -/

theorem foldl_add_eval {α : Type} (U : Name → Nat → ℝ → ℝ) (σ : Env) (g : α → Expr) : ∀ (l : List α) (acc : Expr),
    eval (real U) σ (l.foldl (fun acc x => acc + g x) acc) = eval (real U) σ acc + (l.map fun x => eval (real U) σ (g x)).sum
  | [], acc => by simp
  | x :: l, acc => by
    rw [List.foldl_cons, foldl_add_eval U σ g l, List.map_cons, List.sum_cons, eval_add, add_assoc]

theorem foldl_add_free {α : Type} (g : α → Expr) (s : Name) : ∀ (l : List α) (acc : Expr),
    s ∈ (l.foldl (fun acc x => acc + g x) acc).free → s ∈ acc.free ∨ ∃ x ∈ l, s ∈ (g x).free
  | [], acc, h => Or.inl h
  | x :: l, acc, h => by
    rw [List.foldl_cons] at h
    rcases foldl_add_free g s l _ h with h1 | ⟨y, hy, h1⟩
    · have h1 : s ∈ acc.free ++ (g x).free := h1
      rcases List.mem_append.1 h1 with h2 | h2
      · exact Or.inl h2
      · exact Or.inr ⟨x, by simp, h2⟩
    · exact Or.inr ⟨y, by simp [hy], h1⟩

theorem eval_rashsFunc (U : Name → Nat → ℝ → ℝ) (σ : Env) (s : Switch) :
    eval (real U) σ (rashsFunc s.tol s.functions s.conditions) = switchValue U σ s := by
  rw [rashsFunc, foldl_add_eval, switchValue]
  have e0 : eval (real U) σ (0 : Expr) = 0 := by simp
  rw [e0, zero_add]
  congr 1
  refine List.map_congr_left fun fc _ => ?_
  rw [eval_mul, rashsMult, foldl_add_eval, e0, zero_add]
  congr 2
  refine List.map_congr_left fun c _ => ?_
  have e1 : eval (real U) σ (fn .exp (c / s.tol)) = Real.exp (eval (real U) σ (c / s.tol)) := rfl
  simp only [eval_div, eval_one, eval_add, e1]

theorem free_rashsFunc {s : Switch} {x : Name} (h : x ∈ (rashsFunc s.tol s.functions s.conditions).free) :
    ∃ e ∈ s.tol :: (s.functions ++ s.conditions.flatten), x ∈ e.free := by
  rw [rashsFunc] at h
  rcases foldl_add_free _ _ _ _ h with h | ⟨fc, hfc, h⟩
  · cases h
  · have hm := List.of_mem_zip hfc
    have h : x ∈ (rashsMult s.tol fc.2).free ++ fc.1.free := h
    rcases List.mem_append.1 h with h | h
    · rw [rashsMult] at h
      rcases foldl_add_free _ _ _ _ h with h | ⟨c, hc, h⟩
      · cases h
      · change x ∈ [] ++ ([] ++ (c.free ++ s.tol.free)) at h
        simp only [List.nil_append, List.mem_append] at h
        rcases h with h | h
        · refine ⟨c, ?_, h⟩
          simp only [List.mem_cons, List.mem_append, List.mem_flatten]
          exact Or.inr (Or.inr ⟨fc.2, hm.2, hc⟩)
        · exact ⟨s.tol, by simp, h⟩
    · exact ⟨fc.1, by simp [hm.1], h⟩

end Beluga.Opt
