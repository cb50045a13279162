import Verif.Symbolic.Follow

/-! # The differential control law keeps the control stationary (C29) -/

namespace Beluga.Sym

open Expr

theorem ctlStates_names {controls : List Name} {udot : List Expr} (h : udot.length = controls.length) :
    (ctlStates controls udot).map Dyn.name = controls := by
  rw [ctlStates, List.map_map]
  have : (Dyn.name ∘ fun cu : Name × Expr => (⟨cu.1, cu.2⟩ : Dyn)) = Prod.fst := rfl
  rw [this, List.map_fst_zip (by omega)]

theorem stationary_const {S : Sympy} (hS : LuSound S) {p p' : Prob} (h : differentialControl S .traditional p = .ok p')
    {H : Expr} (hH : p.hamiltonian = some H) (hn : ((p.states ++ p.costates).map Dyn.name ++ p.controls).Nodup)
    {U : Name → Nat → ℝ → ℝ} {c a b : ℝ} {ρ : ℝ → Name → ℝ} (hsol : Follows U (p'.states ++ p'.costates) c a b ρ)
    (hconst : ∀ s ∈ H.free, s ∉ (p.states ++ p.costates).map Dyn.name ++ p.controls → Moves a b ρ 0 s)
    (hsm : ∀ t ∈ Set.Icc a b, ∀ u ∈ p.controls, Smooth U (ρ t) (H.diff u))
    (hdef : ∀ t ∈ Set.Icc a b, ∀ d ∈ p'.states, Defined (real U) (ρ t) d.eom) :
    ∀ u ∈ p.controls, ({ expr := H.diff u } : Con) ∈ p'.terminal ∧
      ∀ t ∈ Set.Icc a b, eval (real U) (ρ t) (H.diff u) = eval (real U) (ρ b) (H.diff u) := by
  obtain ⟨-, -, H', udot, hH', hlu, rfl⟩ := differential_traditional h
  rw [hH] at hH'
  cases hH'
  obtain ⟨hlen, hsolve⟩ := udot_solves hS hlu
  have hnames := ctlStates_names hlen
  intro u hu
  have hmem : H.diff u ∈ gOf H p.controls := List.mem_map_of_mem hu
  have h0 : ∀ t ∈ Set.Icc a b, HasDerivAt (fun τ => eval (real U) (ρ τ) (H.diff u)) 0 t := by
    intro t ht
    have hd := hsol.deriv
      (by
        simp only [List.map_append, hnames] at hn ⊢
        have hp : List.Perm (p.states.map Dyn.name ++ p.controls ++ p.costates.map Dyn.name)
          (p.states.map Dyn.name ++ p.costates.map Dyn.name ++ p.controls) := by
          rw [List.append_assoc, List.append_assoc]
          exact List.Perm.append_left _ List.perm_append_comm
        exact hp.nodup_iff.2 hn)
      (e := H.diff u)
      (by
        intro s hs hns
        apply hconst s (mem_free_diff hs)
        simp only [List.map_append, hnames, List.mem_append, not_or] at hns ⊢
        tauto) ht
      (hsm t ht u hu)
    refine hd.congr_deriv ?_
    have hz := hsolve (real U) (ρ t) (by
      intro e he
      obtain ⟨i, hi, rfl⟩ := List.mem_iff_getElem.1 he
      have := hdef t ht ⟨p.controls[i], udot[i]⟩ (by
        simp only [List.mem_append]
        right
        rw [ctlStates]
        refine List.mem_map.2 ⟨(p.controls[i], udot[i]), ?_, rfl⟩
        rw [List.mem_iff_getElem]
        exact ⟨i, by simp [hlen]; omega, by simp⟩)
      exact this) _ hmem
    simp only [Prob.dyn, List.map_append, List.sum_append] at hz ⊢
    linear_combination c * hz
  refine ⟨?_, eq_end_of_deriv_zero h0⟩
  simp only [List.mem_append]
  right
  exact List.mem_map_of_mem hmem

theorem stationary_values {S : Sympy} (hS : LuSound S) {p p' : Prob} (h : differentialControl S .traditional p = .ok p')
    {H : Expr} (hH : p.hamiltonian = some H) (hn : ((p.states ++ p.costates).map Dyn.name ++ p.controls).Nodup)
    {U : Name → Nat → ℝ → ℝ} {c a b : ℝ} {ρ : ℝ → Name → ℝ} (hsol : Follows U (p'.states ++ p'.costates) c a b ρ)
    (hconst : ∀ s ∈ H.free, s ∉ (p.states ++ p.costates).map Dyn.name ++ p.controls → Moves a b ρ 0 s)
    (hsm : ∀ t ∈ Set.Icc a b, ∀ u ∈ p.controls, Smooth U (ρ t) (H.diff u))
    (hdef : ∀ t ∈ Set.Icc a b, ∀ d ∈ p'.states, Defined (real U) (ρ t) d.eom)
    (hend : Holds U (ρ b) p'.terminal) :
    ∀ u ∈ p.controls, ∀ t ∈ Set.Icc a b, eval (real U) (ρ t) (H.diff u) = 0 := by
  intro u hu t ht
  obtain ⟨h1, h2⟩ := stationary_const hS h hH hn hsol hconst hsm hdef u hu
  rw [h2 t ht]
  exact hend _ h1

/-- Along a solution of the generated equations every `∂H/∂u` is constant; if the generated terminal conditions hold, it
is zero at all times, i.e. the control is a stationary point of the Hamiltonian.  The variables have distinct names, and
the symbols of the Hamiltonian other than states, costates and controls are constants of the trajectory; `MomentumShift`
makes the user's independent variable a state. -/
theorem C29_stationary_partial {S : Sympy} (hS : LuSound S) {p p' : Prob} (h : differentialControl S .traditional p = .ok p')
    {H : Expr} (hH : p.hamiltonian = some H) (hn : ((p.states ++ p.costates).map Dyn.name ++ p.controls).Nodup)
    {U : Name → Nat → ℝ → ℝ} {c a b : ℝ} {ρ : ℝ → Name → ℝ} (hsol : Follows U (p'.states ++ p'.costates) c a b ρ)
    (hconst : ∀ s ∈ H.free, s ∉ (p.states ++ p.costates).map Dyn.name ++ p.controls → Moves a b ρ 0 s)
    (hsm : ∀ t ∈ Set.Icc a b, Smooth U (ρ t) H ∧ ∀ u ∈ p.controls, Smooth U (ρ t) (H.diff u))
    (hdef : ∀ t ∈ Set.Icc a b, ∀ d ∈ p'.states, Defined (real U) (ρ t) d.eom)
    (hend : Holds U (ρ b) p'.terminal) :
    p'.controls = [] ∧ (p'.states.map Dyn.name) = p.states.map Dyn.name ++ p.controls ∧
    ∀ t ∈ Set.Icc a b, ∀ u ∈ p.controls, HasPartial (fun σ => eval (real U) σ H) u 0 (ρ t) := by
  have hg := stationary_values hS h hH hn hsol hconst (fun t ht => (hsm t ht).2) hdef hend
  obtain ⟨-, -, H', udot, hH', hlu, rfl⟩ := differential_traditional h
  rw [hH] at hH'
  cases hH'
  obtain ⟨hlen, -⟩ := udot_solves hS hlu
  have hnames := ctlStates_names hlen
  have hcl : (ctlStates p.controls udot).length = p.controls.length := by
    rw [← congrArg List.length hnames, List.length_map]
  refine ⟨by simp only [hcl, List.drop_length], by simp [hnames], ?_⟩
  intro t ht u hu
  have := hasDerivAt_update (x := u) (hsm t ht).1
  rw [hg u hu t ht] at this
  exact this

/-- `x' = u`, minimise `∫ u²/2 - t u` plus `tf/2`: the Hamiltonian depends on the independent variable. -/
def exT : Prob where
  ind := "t"
  states := [⟨"x", sym "u"⟩]
  controls := ["u"]
  costPath := num (1 / 2) * sym "u" * sym "u" - sym "t" * sym "u"
  costTerminal := num (1 / 2) * sym "t"
  initial := [{ expr := sym "x" }]
  sympified := true

/-- `Dualize` and `DifferentialControlLaw`, as in `make_indirect_method`. -/
def withDifferential (m : Method) (p : Prob) : Py Prob := do
  let p ← dualize exSympy m p
  differentialControl exSympy m p

/-- `x = t`, `u = 1`, all multipliers zero. -/
noncomputable def exTcurve (τ : ℝ) (s : Name) : ℝ := if s = "x" ∨ s = "t" then τ else if s = "u" then 1 else 0

/-- Polynomials. -/
def Expr.noInv : Expr → Bool
  | num _ | pi | sym _ => true
  | add a b | mul a b => noInv a && noInv b
  | pow a _ => noInv a
  | inv _ | fn _ _ => false

theorem noInv_diff {x : Name} : ∀ {e : Expr}, e.noInv = true → (e.diff x).noInv = true
  | num _, _ => rfl
  | pi, _ => rfl
  | sym s, _ => by simp only [diff]; split <;> rfl
  | add a b, h => by
    simp only [noInv, diff, Bool.and_eq_true] at h ⊢
    exact ⟨noInv_diff h.1, noInv_diff h.2⟩
  | mul a b, h => by
    simp only [noInv, diff, Bool.and_eq_true] at h ⊢
    exact ⟨⟨noInv_diff h.1, h.2⟩, h.1, noInv_diff h.2⟩
  | pow a n, h => by
    simp only [noInv, diff, Bool.and_eq_true] at h ⊢
    exact ⟨⟨trivial, h⟩, noInv_diff h⟩

theorem defined_of_noInv {K : Type _} [Field K] {I : Interp K} {ρ : Name → K} : ∀ {e : Expr}, e.noInv = true → Defined I ρ e
  | num _, _ => trivial
  | pi, _ => trivial
  | sym s, _ => trivial
  | add a b, h => by
    simp only [noInv, Bool.and_eq_true] at h
    exact ⟨defined_of_noInv h.1, defined_of_noInv h.2⟩
  | mul a b, h => by
    simp only [noInv, Bool.and_eq_true] at h
    exact ⟨defined_of_noInv h.1, defined_of_noInv h.2⟩
  | pow a n, h => defined_of_noInv (e := a) h

theorem diff_add' (x : Name) (a b : Expr) : (a + b).diff x = a.diff x + b.diff x := rfl
theorem diff_sub' (x : Name) (a b : Expr) : (a - b).diff x = a.diff x + (num 0 * b + num (-1) * b.diff x) := rfl

/-- The rate of the control in `exT` is zero along the curve. -/
theorem exT_rate (U : Name → Nat → ℝ → ℝ) (r : Expr)
    (hlu : exSympy.lu (ctlMatrix (hamiltonianOf exT.costPath exT.states) ["u"])
      (ctlRhs (hamiltonianOf exT.costPath exT.states) ["u"] [⟨"x", sym "u"⟩,
        ⟨lamName "x", -((hamiltonianOf exT.costPath exT.states).diff "x")⟩]) = .ok [r]) (τ : ℝ) :
    eval (real U) (exTcurve τ) r = 0 := by
  have hd : Defined (real U) (exTcurve τ) r := by
    have hlu' := hlu
    rw [show exSympy.lu = cramerLu from rfl, cramerLu] at hlu'
    split at hlu'
    · simp only [Except.ok.injEq] at hlu'
      have h2 := congrArg (fun l => l.getD 0 0) hlu'
      simp only [List.getD_cons_zero] at h2
      rw [← h2]
      have hH : (hamiltonianOf exT.costPath exT.states).noInv = true := by decide +kernel
      have hg := noInv_diff (x := "u") (noInv_diff (x := "u") hH)
      refine ⟨defined_of_noInv ?_, defined_of_noInv ?_, ?_⟩
      · decide +kernel
      · decide +kernel
      · have : eval (real U) (exTcurve τ) (detE 1 (entry (ctlMatrix (hamiltonianOf exT.costPath exT.states) ["u"]))) = 1 := by
          simp [eval_detE, ctlMatrix, gOf, hamiltonianOf, exT, entry, Expr.diff, eval, lamName, diff_add', diff_sub']
          norm_num
        intro h0
        exact one_ne_zero (this.symm.trans h0)
    · cases hlu'
  have := (udot_solves exSympy_sound hlu).2 (real U) (exTcurve τ) (by simpa using hd) _
    (List.mem_map_of_mem (a := "u") (by simp))
  simp [exT, hamiltonianOf, ctlStates, Expr.diff, eval, lamName, exTcurve, diff_add', diff_sub'] at this
  linarith

/-- Without `MomentumShift` the property is false for a Hamiltonian that depends on the independent variable: a curve
follows the generated equations and meets all generated boundary conditions, but its control is not stationary. -/
theorem C29_violated : ∃ p', withDifferential .traditional exT = .ok p' ∧ ∃ H, p'.hamiltonian = some H ∧
    ∀ U, Follows U p'.moving 1 0 1 exTcurve ∧ Moves 0 1 exTcurve 1 p'.ind ∧
      (∀ s, s ∉ p'.moving.map Dyn.name → s ≠ p'.ind → Moves 0 1 exTcurve 0 s) ∧
      Holds U (exTcurve 0) p'.initial ∧ Holds U (exTcurve 1) p'.terminal ∧
      ¬HasPartial (fun σ => eval (real U) σ H) "u" 0 (exTcurve 0) := by
  have hok : (match withDifferential .traditional exT with | .ok _ => true | .error _ => false) = true := by
    decide +kernel
  cases hp : withDifferential .traditional exT with
  | error e => rw [hp] at hok; cases hok
  | ok p' =>
    rw [withDifferential, dualize_traditional exSympy exT rfl rfl rfl] at hp
    simp only [bind, Except.bind] at hp
    obtain ⟨-, -, H, udot, hH, hlu, rfl⟩ := differential_traditional hp
    simp only [Option.some.injEq] at hH
    obtain ⟨hlen, -⟩ := udot_solves exSympy_sound hlu
    obtain ⟨r, rfl⟩ : ∃ r, udot = [r] := by
      match udot, hlen with
      | [r], _ => exact ⟨r, rfl⟩
    refine ⟨_, rfl, H, by simpa using hH, fun U => ?_⟩
    subst hH
    have hr := exT_rate U r hlu
    clear hlu hlen hp hok
    refine ⟨?_, ?_, ?_, ?_, ?_, ?_⟩
    · intro t ht d hd
      simp [Prob.moving, exT, ctlStates] at hd
      rcases hd with rfl | rfl | rfl
      · simp [exTcurve, eval]
        exact hasDerivAt_id' t
      · simp [exTcurve, hr]
        exact hasDerivAt_const t _
      · simp [exTcurve, eval, lamName, hamiltonianOf, diff_add', diff_sub', Expr.diff]
        exact hasDerivAt_const t _
    · intro t ht
      simp [exTcurve, exT]
      exact hasDerivAt_id' t
    · intro s hs hs' t ht
      simp [Prob.moving, exT, ctlStates] at hs hs'
      simp [exTcurve, hs, hs']
      exact hasDerivAt_const t _
    · intro c hc
      simp [exT, augment, nuNames] at hc
      rcases hc with rfl | rfl
      · simp [eval, exTcurve]
      · simp [eval, exTcurve, lamName, Expr.diff]
        decide +kernel
    · intro c hc
      simp [exT, augment, nuNames, gOf] at hc
      rcases hc with rfl | rfl | rfl
      all_goals simp [eval, exTcurve, lamName, hamiltonianOf, diff_add', diff_sub', Expr.diff]
      all_goals norm_num
    · intro h
      have hs : Smooth U (exTcurve 0) (hamiltonianOf exT.costPath exT.states) := by
        refine ⟨⟨⟨⟨trivial, trivial⟩, trivial⟩, trivial, trivial, trivial⟩, trivial, trivial⟩
      have := (hasDerivAt_update (x := "u") hs).unique h
      simp [eval, exTcurve, lamName, hamiltonianOf, diff_add', diff_sub', Expr.diff, exT] at this

/-- With `MomentumShift` the rate of the control is 1, as it should be: `∂H/∂u = u - t + λ`. -/
def exTshifted : Py Prob := do
  let p ← momentumShift exT
  withDifferential .traditional p

example : exTshifted.map (fun p => (p.states ++ p.costates).map fun d => (d.name,
      eval (⟨3, fun _ x => x⟩ : Interp ℚ) (fun s => if s = "u" then 7 else 5) d.eom)) =
    .ok [("x", 7), ("t", 1), ("u", 1), ("_lam_x", 0), ("_lam_t", 7)] := by decide +kernel

end Beluga.Sym
