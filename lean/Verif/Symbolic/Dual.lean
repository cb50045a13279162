import Verif.Symbolic.Problem
import Mathlib.Data.List.Forall2

/-! # The dual problem: specification and lemmas (C27) -/

namespace Beluga.Sym

open Expr

/-! ### Specification -/

/-- The Hamiltonian: path cost plus costates times rates. -/
noncomputable def Hval (p : Prob) (U : Name → Nat → ℝ → ℝ) (ρ : Name → ℝ) : ℝ :=
  eval (real U) ρ p.costPath + (p.states.map fun s => ρ ("_lam_" ++ s.name) * eval (real U) ρ s.eom).sum

/-- A boundary cost with the constraints of that boundary attached by multipliers. -/
noncomputable def endCost (pre : String) (cost : Expr) (cons : List Con) (U : Name → Nat → ℝ → ℝ) (ρ : Name → ℝ) : ℝ :=
  eval (real U) ρ cost + (cons.zipIdx.map fun ci => ρ (pre ++ toString ci.2) * eval (real U) ρ ci.1.expr).sum

/-- `d` is the partial derivative of `g` with respect to the symbol `x`, at `ρ`. -/
def HasPartial (g : (Name → ℝ) → ℝ) (x : Name) (d : ℝ) (ρ : Name → ℝ) : Prop :=
  HasDerivAt (fun z => g (Function.update ρ x z)) d (ρ x)

/-- The path cost and the rates are differentiable at `ρ`. -/
def SmoothRates (p : Prob) (U : Name → Nat → ℝ → ℝ) (ρ : Name → ℝ) : Prop :=
  Smooth U ρ p.costPath ∧ ∀ s ∈ p.states, Smooth U ρ s.eom

/-- The initial cost and constraints are differentiable at `ρ`. -/
def SmoothStart (p : Prob) (U : Name → Nat → ℝ → ℝ) (ρ : Name → ℝ) : Prop :=
  Smooth U ρ p.costInitial ∧ ∀ c ∈ p.initial, Smooth U ρ c.expr

/-- The terminal cost and constraints are differentiable at `ρ`. -/
def SmoothStop (p : Prob) (U : Name → Nat → ℝ → ℝ) (ρ : Name → ℝ) : Prop :=
  Smooth U ρ p.costTerminal ∧ ∀ c ∈ p.terminal, Smooth U ρ c.expr

/-- All boundary costs and constraints are differentiable at `ρ`. -/
def SmoothEnds (p : Prob) (U : Name → Nat → ℝ → ℝ) (ρ : Name → ℝ) : Prop :=
  Smooth U ρ p.costInitial ∧ Smooth U ρ p.costTerminal ∧ ∀ c ∈ p.initial ++ p.terminal, Smooth U ρ c.expr

theorem SmoothEnds.start {p : Prob} {U : Name → Nat → ℝ → ℝ} {ρ : Name → ℝ} (h : SmoothEnds p U ρ) : SmoothStart p U ρ :=
  ⟨h.1, fun c hc => h.2.2 c (List.mem_append_left _ hc)⟩

theorem SmoothEnds.stop {p : Prob} {U : Name → Nat → ℝ → ℝ} {ρ : Name → ℝ} (h : SmoothEnds p U ρ) : SmoothStop p U ρ :=
  ⟨h.2.1, fun c hc => h.2.2 c (List.mem_append_right _ hc)⟩

/-- Hamilton's equations and the boundary conditions of the calculus of variations. -/
structure IsDual (p p' : Prob) : Prop where
  states : p'.states = p.states
  hamiltonian : ∃ H, p'.hamiltonian = some H ∧ ∀ U ρ, eval (real U) ρ H = Hval p U ρ
  state_rates : ∀ s ∈ p.states, ∀ U ρ, SmoothRates p U ρ →
    HasPartial (Hval p U) ("_lam_" ++ s.name) (eval (real U) ρ s.eom) ρ
  costate_rates : List.Forall₂ (fun x (l : Dyn) => l.name = "_lam_" ++ x ∧ ∀ U ρ, SmoothRates p U ρ →
    HasPartial (Hval p U) x (-(eval (real U) ρ l.eom)) ρ) (p.states.map Dyn.name) p'.costates
  coparameter_rates : List.Forall₂ (fun x (l : Dyn) => l.name = "_lam_" ++ x ∧ ∀ U ρ, SmoothRates p U ρ →
    HasPartial (Hval p U) x (-(eval (real U) ρ l.eom)) ρ) p.parameters p'.coparameters
  initial : ∃ extra, p'.initial = p.initial ++ extra ∧ List.Forall₂ (fun x (c : Con) => ∀ U ρ, SmoothStart p U ρ →
    HasPartial (endCost "_nu_0_" p.costInitial p.initial U) x (eval (real U) ρ c.expr - ρ ("_lam_" ++ x)) ρ)
      (p.states.map Dyn.name ++ p.parameters) extra
  terminal : ∃ extra last, p'.terminal = p.terminal ++ extra ++ [last] ∧
    List.Forall₂ (fun x (c : Con) => ∀ U ρ, SmoothStop p U ρ →
      HasPartial (endCost "_nu_f_" p.costTerminal p.terminal U) x (ρ ("_lam_" ++ x) - eval (real U) ρ c.expr) ρ)
      (p.states.map Dyn.name ++ p.parameters) extra ∧
    ∀ U ρ, SmoothStop p U ρ →
      HasPartial (endCost "_nu_f_" p.costTerminal p.terminal U) p.ind (eval (real U) ρ last.expr - Hval p U ρ) ρ
  adjoints : p'.adjoints = p.adjoints ++ ((List.range p.initial.length).map fun i => "_nu_0_" ++ toString i) ++
    (List.range p.terminal.length).map fun i => "_nu_f_" ++ toString i
  rest : { p' with states := p.states, costates := p.costates, coparameters := p.coparameters, initial := p.initial, terminal := p.terminal, adjoints := p.adjoints, costInitial := p.costInitial, costTerminal := p.costTerminal, hamiltonian := p.hamiltonian, symmetries := p.symmetries, coms := p.coms, omega := p.omega, chain := p.chain, dualized := p.dualized } = p

/-- The user's expressions do not use the names of the costates, and the states have distinct names. -/
structure LamFresh (p : Prob) : Prop where
  nodup : (p.states.map Dyn.name).Nodup
  cost : ∀ s ∈ p.states, "_lam_" ++ s.name ∉ p.costPath.free
  rates : ∀ s ∈ p.states, ∀ r ∈ p.states, "_lam_" ++ s.name ∉ r.eom.free

/-! ### Lemmas -/

theorem lam_inj {a b : Name} (h : "_lam_" ++ a = "_lam_" ++ b) : a = b := by
  have := congrArg String.toList h
  simp only [String.toList_append, List.append_cancel_left_eq] at this
  exact String.toList_inj.1 this

section
variable {K : Type _} [Field K] (I : Interp K) (ρ : Name → K)

theorem eval_foldl_add {α : Type _} (g : α → Expr) (l : List α) (c : Expr) :
    eval I ρ (l.foldl (fun acc a => acc + g a) c) = eval I ρ c + (l.map fun a => eval I ρ (g a)).sum := by
  induction l generalizing c with
  | nil => simp
  | cons a l ih => rw [List.foldl_cons, ih]; simp [add_assoc]

theorem diff_foldl_add {α : Type _} (x : Name) (g : α → Expr) (l : List α) (c : Expr) :
    eval I ρ (Expr.diff x (l.foldl (fun acc a => acc + g a) c)) =
      eval I ρ (Expr.diff x c) + (l.map fun a => eval I ρ (Expr.diff x (g a))).sum := by
  induction l generalizing c with
  | nil => simp
  | cons a l ih =>
    rw [List.foldl_cons, ih]
    have : eval I ρ (Expr.diff x (c + g a)) = eval I ρ (Expr.diff x c) + eval I ρ (Expr.diff x (g a)) := rfl
    simp [this, add_assoc]

theorem diff_sym_mul (x y : Name) (e : Expr) : eval I ρ (Expr.diff x (sym y * e)) =
    (if y = x then eval I ρ e else 0) + ρ y * eval I ρ (Expr.diff x e) := by
  change eval I ρ (Expr.diff x (sym y)) * eval I ρ e + ρ y * _ = _
  simp only [Expr.diff]
  split <;> simp [eval]

end

theorem smooth_foldl_add {U : Name → Nat → ℝ → ℝ} {ρ : Name → ℝ} {α : Type _} (g : α → Expr) (l : List α) (c : Expr)
    (hc : Smooth U ρ c) (h : ∀ a ∈ l, Smooth U ρ (g a)) : Smooth U ρ (l.foldl (fun acc a => acc + g a) c) := by
  induction l generalizing c with
  | nil => exact hc
  | cons a l ih => exact ih _ ⟨hc, h a (by simp)⟩ fun a ha => h a (by simp [ha])

theorem eval_hamiltonianOf (p : Prob) (U : Name → Nat → ℝ → ℝ) (ρ : Name → ℝ) :
    eval (real U) ρ (hamiltonianOf p.costPath p.states) = Hval p U ρ := by
  rw [hamiltonianOf, eval_foldl_add]; rfl

theorem smooth_hamiltonianOf {p : Prob} {U : Name → Nat → ℝ → ℝ} {ρ : Name → ℝ} (h : SmoothRates p U ρ) :
    Smooth U ρ (hamiltonianOf p.costPath p.states) :=
  smooth_foldl_add _ _ _ h.1 fun s hs => ⟨trivial, h.2 s hs⟩

theorem hasPartial_H {p : Prob} {U : Name → Nat → ℝ → ℝ} {ρ : Name → ℝ} (h : SmoothRates p U ρ) (x : Name) :
    HasPartial (Hval p U) x (eval (real U) ρ ((hamiltonianOf p.costPath p.states).diff x)) ρ := by
  have := hasDerivAt_update (x := x) (smooth_hamiltonianOf h)
  simp only [eval_hamiltonianOf] at this
  exact this

theorem diff_lam {p : Prob} (hf : LamFresh p) {s : Dyn} (hs : s ∈ p.states) {K : Type _} [Field K] (I : Interp K)
    (ρ : Name → K) : eval I ρ ((hamiltonianOf p.costPath p.states).diff ("_lam_" ++ s.name)) = eval I ρ s.eom := by
  rw [hamiltonianOf, diff_foldl_add, eval_diff_of_not_mem _ _ (hf.cost s hs), zero_add]
  have hn := hf.nodup
  have hr := hf.rates s hs
  revert hs hn hr
  generalize p.states = L
  intro hs hn hr
  induction L with
  | nil => cases hs
  | cons a L ih =>
    rw [List.map_cons, List.sum_cons, diff_sym_mul, eval_diff_of_not_mem _ _ (hr a (by simp)), mul_zero, add_zero]
    rw [List.map_cons, List.nodup_cons] at hn
    rcases List.mem_cons.1 hs with rfl | hs
    · rw [lamName, if_pos rfl, List.sum_eq_zero, add_zero]
      intro x hx
      obtain ⟨b, hb, rfl⟩ := List.mem_map.1 hx
      rw [diff_sym_mul, eval_diff_of_not_mem _ _ (hr b (by simp [hb])), mul_zero, add_zero, if_neg]
      intro e
      exact hn.1 (lam_inj e ▸ List.mem_map_of_mem hb)
    · rw [if_neg, zero_add]
      · exact ih hs hn.2 fun r h => hr r (by simp [h])
      · intro e
        exact hn.1 (lam_inj e ▸ List.mem_map_of_mem hs)

theorem zip_nuNames (pre : String) (cons : List Con) :
    (nuNames pre cons.length).zip cons = cons.zipIdx.map fun ci => (pre ++ toString ci.2, ci.1) := by
  rw [nuNames, List.zipIdx_eq_zip_range', ← List.range_eq_range']
  generalize List.range cons.length = l
  induction l generalizing cons with
  | nil => cases cons <;> rfl
  | cons a l ih =>
    cases cons with
    | nil => rfl
    | cons c cs => simp only [List.map_cons, List.zip_cons_cons]; rw [ih]

theorem eval_augment (pre : String) (cost : Expr) (cons : List Con) (U : Name → Nat → ℝ → ℝ) (ρ : Name → ℝ) :
    eval (real U) ρ (augment cost (nuNames pre cons.length) cons) = endCost pre cost cons U ρ := by
  rw [augment, eval_foldl_add, zip_nuNames, endCost, List.map_map]; rfl

theorem smooth_augment {U : Name → Nat → ℝ → ℝ} {ρ : Name → ℝ} {cost : Expr} {cons : List Con} (nus : List Name)
    (h : Smooth U ρ cost) (hc : ∀ c ∈ cons, Smooth U ρ c.expr) : Smooth U ρ (augment cost nus cons) :=
  smooth_foldl_add _ _ _ h fun _ hnc => ⟨trivial, hc _ (List.of_mem_zip hnc).2⟩

theorem hasPartial_end {U : Name → Nat → ℝ → ℝ} {ρ : Name → ℝ} {cost : Expr} {cons : List Con} (pre : String)
    (h : Smooth U ρ cost) (hc : ∀ c ∈ cons, Smooth U ρ c.expr) (x : Name) : HasPartial (endCost pre cost cons U) x
      (eval (real U) ρ ((augment cost (nuNames pre cons.length) cons).diff x)) ρ := by
  have := hasDerivAt_update (x := x) (smooth_augment (nuNames pre cons.length) h hc)
  simp only [eval_augment] at this
  exact this

theorem setEoms_map {names : List Name} (f : Name → Expr) :
    setEoms (names.map fun n => (⟨lamName n, 0⟩ : Dyn)) (names.map f) = names.map fun n => ⟨lamName n, f n⟩ := by
  induction names with
  | nil => rfl
  | cons a l ih => simp only [List.map_cons, setEoms, ih]

theorem transversality_map (cost : Expr) (sign : Expr → Expr → Expr) {names : List Name} (f : Name → Expr) :
    transversality cost sign names (names.map fun n => ⟨lamName n, f n⟩) =
      names.map fun n => { expr := sign (sym (lamName n)) (cost.diff n) } := by
  induction names with
  | nil => rfl
  | cons a l ih =>
    rw [transversality] at ih ⊢
    simp only [List.map_cons, List.zip_cons_cons, ih]

theorem forall₂_map_right' {α β : Type _} {R : α → β → Prop} {f : α → β} {l : List α} (h : ∀ a ∈ l, R a (f a)) :
    List.Forall₂ R l (l.map f) := by
  induction l with
  | nil => exact .nil
  | cons a l ih => exact .cons (h a (by simp)) (ih fun a ha => h a (by simp [ha]))

/-- The result of the traditional `Dualize`, in closed form. -/
theorem dualize_traditional (S : Sympy) (p : Prob) (hs : p.sympified = true) (hc : p.costates = [])
    (hcp : p.coparameters = []) :
    let H := hamiltonianOf p.costPath p.states
    let names := p.states.map Dyn.name
    let c0 := augment p.costInitial (nuNames "_nu_0_" p.initial.length) p.initial
    let cf := augment p.costTerminal (nuNames "_nu_f_" p.terminal.length) p.terminal
    let adj := p.adjoints ++ nuNames "_nu_0_" p.initial.length ++ nuNames "_nu_f_" p.terminal.length
    dualize S .traditional p = .ok { p with
      adjoints := adj
      costInitial := c0
      costTerminal := cf
      hamiltonian := some H
      costates := names.map fun n => ⟨lamName n, -(H.diff n)⟩
      coparameters := p.parameters.map fun n => ⟨lamName n, -(H.diff n)⟩
      symmetries := p.symmetries.map fun f => f ++ names.map fun _ => 0
      coms := p.coms ++ [("hamiltonian", H)]
      initial := p.initial ++ (names ++ p.parameters).map fun n => { expr := sym (lamName n) + c0.diff n }
      terminal := p.terminal ++ ((names ++ p.parameters).map fun n => ({ expr := sym (lamName n) - cf.diff n } : Con)) ++
        [{ expr := cf.diff p.ind + H }]
      chain := p.chain ++ [.dualize names.length adj.length]
      dualized := true } := by
  intro H names c0 cf adj
  rw [dualize, if_neg (by simp [hs])]
  simp only [hc, hcp, List.nil_append]
  simp only [bind, Except.bind]
  have h1 : setEoms (((p.states.map Dyn.name).map fun n => (⟨lamName n, 0⟩ : Dyn)) ++
      p.parameters.map fun n => ⟨lamName n, 0⟩) ((p.states.map Dyn.name ++ p.parameters).map fun s =>
        -((hamiltonianOf p.costPath p.states).diff s)) =
      (names.map fun n => ⟨lamName n, -(H.diff n)⟩) ++ p.parameters.map fun n => ⟨lamName n, -(H.diff n)⟩ := by
    rw [← List.map_append, setEoms_map fun s => -((hamiltonianOf p.costPath p.states).diff s), List.map_append]
  simp only [h1, List.length_map]
  rw [List.take_left' (by simp [names]), List.drop_left' (by simp [names])]
  have h2 : ∀ cost sign, transversality cost sign (p.states.map Dyn.name ++ p.parameters)
      ((names.map fun n => ⟨lamName n, -(H.diff n)⟩) ++ p.parameters.map fun n => ⟨lamName n, -(H.diff n)⟩) =
      (names ++ p.parameters).map fun n => { expr := sign (sym (lamName n)) (cost.diff n) } := by
    intro cost sign
    rw [← List.map_append]
    exact transversality_map cost sign _
  simp only [h2]
  simp [names, H, c0, cf, adj, Function.comp_def]

end Beluga.Sym
