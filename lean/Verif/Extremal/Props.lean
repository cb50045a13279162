import Verif.Symbolic.Cramer
import Verif.Extremal.Clean

/-! # Solutions of the generated boundary value problem are extremals of the user's problem (C64) -/

namespace Beluga.Opt

open Beluga.Sym Beluga.Sym.Expr

/-- `indirect` first makes the problem `primal`, then adds the dual variables. -/
theorem indirect_split {S : Sympy} {o : Opts} {p p' : Prob} (hm : o.momentumShift = true) (h : indirect S o p = .ok p') :
    ∃ q ctl, primal S p = .ok q ∧
      (ctl = .algebraic ∧ o.controlMethod = .algebraic ∨ ctl = .differential o.method ∧ o.controlMethod = .differential) ∧
      runSteps S ([.dualize o.method, ctl] ++ (if o.normalizeTime then [.normalizeTime] else []) ++ [.squash] ++
        (if o.analyticalJacobian && o.controlMethod ≠ .algebraic then [.jacobians] else [])) q = .ok p' := by
  rw [indirect] at h
  obtain ⟨p1, h1, h⟩ := bind_ok h
  obtain ⟨steps, h2, h⟩ := bind_ok h
  obtain ⟨ineq, ctl, hineq, hctl, rfl⟩ := indirectSteps_ok h2
  rw [if_pos hm, List.append_assoc, List.append_assoc, List.append_assoc, runSteps_append] at h
  obtain ⟨q, hq, h⟩ := bind_ok h
  refine ⟨q, ctl, ?_, hctl, ?_⟩
  · rw [primal, h1]
    change (ineqSteps _ >>= _) = _
    rw [hineq]
    change runSteps S _ p1 = _
    rw [← hq]
    simp
  · rw [← h]
    simp

/-- Solutions of the generated boundary value problem solve the dual problem.  `η` is the tolerance for the stationarity of
the controls: zero with the algebraic control law. -/
theorem FrontOk.dual {S : Sympy} (hL : LuSound S) {o : Opts} {p p' p3 q : Prob} {f f2 f3 : Expr → Expr} {ctl : Step}
    (hp : Stated p) (hf : FrontOk p p3 q f f2 f3)
    (hctl : ctl = .algebraic ∧ o.controlMethod = .algebraic ∨
      ctl = .differential o.method ∧ o.controlMethod = .differential)
    (hd : o.method ≠ .other) (hS : o.controlMethod = .algebraic → SolveSound S)
    (h : runSteps S ([.dualize o.method, ctl] ++ (if o.normalizeTime then [.normalizeTime] else []) ++ [.squash] ++
        (if o.analyticalJacobian && o.controlMethod ≠ .algebraic then [.jacobians] else [])) q = .ok p')
    {U : Name → Nat → ℝ → ℝ} {ε η a b : ℝ} {ρ : ℝ → Env} (hε : 0 ≤ ε) (hη : η = if o.controlMethod = .algebraic then 0 else ε)
    (hab : a ≤ b) (hs : NearlySolves U p' ε a b ρ) (hr : Regular S U q p' a b ρ) {c : ℝ}
    (hc : c = if o.normalizeTime then ρ a ("_delta_" ++ p.ind) else 1) (hpos : 0 < c) :
    DualNear U q ε η c a b ρ ∧ (∀ s, s ∉ q.states.map Dyn.name → s ∉ q.states.map (fun s => lamName s.name) → s ∉ q.controls →
      s ∉ q.controls.map lamName → s ≠ q.ind → s ≠ "_tau" → Moves a b ρ 0 s) ∧
    ∀ s ∈ (hexpr q).free, s ∉ q.states.map Dyn.name ++ q.states.map (fun s => lamName s.name) ++ q.controls → Moves a b ρ 0 s := by
  have hname : "_delta" ++ q.ind = "_delta_" ++ p.ind := by
    rw [hf.ind, ← String.append_assoc]
    rfl
  have hcp : c = pace o.normalizeTime q.ind a ρ := by
    rw [hc, pace, hname]
  have hcl := hf.clean hp
  obtain ⟨h1, h2⟩ := pipeline (U := U) hL hcl hd (ctl := ctl) (norm := o.normalizeTime)
    (jac := o.analyticalJacobian && o.controlMethod ≠ .algebraic)
    (hctl.imp (fun hh => ⟨hh.1, hS hh.2⟩) fun hh => hh.1) (fun _ => ⟨_, _, hf.states⟩) h hab (η := η) (by
      rcases hctl with hh | hh
      · exact Or.inl ⟨by rw [hη, if_pos hh.2], hh.1⟩
      · exact Or.inr (by rw [hη, if_neg (by rw [hh.2]; decide)])) hε hs hr (by
      intro hn
      rw [hn] at hc
      simp only [if_true] at hc
      rw [hname, ← hc]
      exact hpos)
  rw [← hcp] at h1
  have hfixed : ∀ s, s ∉ q.states.map Dyn.name → s ∉ q.states.map (fun s => lamName s.name) → s ∉ q.controls →
      s ∉ q.controls.map lamName → s ≠ q.ind → s ≠ "_tau" → Moves a b ρ 0 s := by
    intro s n1 n2 n3 n6 n4 n5
    refine h2 s ?_ n6 n4 n5
    rw [hf.empty.2.2.2.1]
    simp only [List.mem_append, not_or, List.map_nil, List.not_mem_nil, not_false_eq_true, and_true]
    exact ⟨⟨n1, n2⟩, n3⟩
  refine ⟨h1, hfixed, ?_⟩
  intro s hsf hsn
  simp only [List.mem_append, not_or] at hsn
  have hcf := hcl.free s hsf
  refine hfixed s hsn.1.1 hsn.1.2 hsn.2 ?_ hcf.2.1 hcf.2.2
  intro hx
  obtain ⟨u, hu, rfl⟩ := List.mem_map.1 hx
  exact (hcl.lam_controls u hu).1 hsf

theorem FrontOk.nu_moves {p p3 q : Prob} {f f2 f3 : Expr → Expr} (hp : Stated p) (hf : FrontOk p p3 q f f2 f3)
    {a b : ℝ} {ρ : ℝ → Env}
    (hfixed : ∀ s, (∀ n, s ≠ lamName n) → s ∉ q.states.map Dyn.name → s ∉ q.controls → s ≠ q.ind → s ≠ "_tau" → Moves a b ρ 0 s)
    (i : Nat) : Moves a b ρ 0 ("_nu_f_" ++ toString i) := by
  have hne : ∀ s, Plain p s → "_nu_f_" ++ toString i ≠ s := fun s hs e => hs.1 (Or.inr (Or.inr (Or.inl ⟨_, e.symm⟩)))
  refine hfixed _ ?_ ?_ ?_ ?_ ?_
  · intro n e
    have := congrArg String.toList e
    simp [lamName, String.toList_append] at this
  · intro hh
    rw [hf.names] at hh
    exact hne _ (hp.plain _ (by simp only [List.mem_append] at hh ⊢; exact Or.inl (Or.inl hh))) rfl
  · intro hh
    exact hne _ (hf.control_mem hp hh).1 rfl
  · rw [hf.ind]
    intro e
    exact hp.ind (Or.inr (Or.inr (Or.inl ⟨_, e.symm⟩)))
  · intro e
    have := congrArg String.toList e
    simp [String.toList_append] at this

/-- From the dual problem to extremals, up to the tolerances, if only states, controls, independent variables and symbols for
costates move. -/
theorem FrontOk.extremal_of {p p3 q : Prob} {f f2 f3 : Expr → Expr} (hp : Stated p) (hf : FrontOk p p3 q f f2 f3)
    {U : Name → Nat → ℝ → ℝ} {ε η a b c : ℝ} {ρ : ℝ → Env} (hab : a ≤ b) (h1 : DualNear U q ε η c a b ρ)
    (hfixed : ∀ s, (∀ n, s ≠ lamName n) → s ∉ q.states.map Dyn.name → s ∉ q.controls → s ≠ q.ind → s ≠ "_tau" → Moves a b ρ 0 s)
    (hfree : ∀ s ∈ (hexpr q).free, s ∉ q.states.map Dyn.name ++ q.states.map (fun s => lamName s.name) ++ q.controls →
      Moves a b ρ 0 s)
    (hsm : ∀ t ∈ Set.Icc a b, SmoothRates q U (ρ t)) (hsa : SmoothStart q U (ρ a)) (hsb : SmoothStop q U (ρ b)) :
    NearExtremal (ocpOf U p.ind (p.states.map fun d => ⟨d.name, f3 (f2 (f d.eom))⟩) p.constants q) ε η (ρ a p.ind)
      (ρ a p.ind + c * (b - a)) (fun s => ρ (a + (s - ρ a p.ind) / c))
      (fun s n => ρ (a + (s - ρ a p.ind) / c) ("_lam_" ++ n)) (fun i => ρ a ("_nu_0_" ++ toString i))
      (fun i => ρ a ("_nu_f_" ++ toString i)) := by
  have hcl := hf.clean hp
  have hplain : ∀ s, Plain p s → s ∉ q.states.map Dyn.name → s ∉ q.controls → Moves a b ρ 0 s := by
    intro s hs n1 n2
    refine hfixed s ?_ n1 n2 ?_ ?_
    · rintro n rfl
      exact hs.1 (Or.inl ⟨_, rfl⟩)
    · rw [hf.ind]; exact hs.2
    · exact fun e => hs.1 (Or.inr (Or.inr (Or.inr (Or.inr e))))
  have hdist := hp.names
  simp only [List.nodup_append, List.mem_append] at hdist
  refine h1.extremal hab hcl.toNamed hf.states hfree ?_ ?_ hsm hsa hsb
  · intro s hsc
    refine hplain s (hp.plain s (by simp [hsc])) ?_ ?_
    · rw [hf.names]
      intro hh
      exact hdist.1.1.2.2 s (Or.inl (by simpa only [List.mem_append] using hh)) s hsc rfl
    · intro hh
      exact (hf.control_mem hp hh).2 (by simp [hsc])
  · intro i
    exact (moves_const (hf.nu_moves hp hfixed i) b ⟨hab, le_refl _⟩).symm

/-- From the dual problem: solutions of the generated boundary value problem are extremals, up to the tolerances. -/
theorem FrontOk.extremal {S : Sympy} (hL : LuSound S) {o : Opts} {p p' p3 q : Prob} {f f2 f3 : Expr → Expr} {ctl : Step}
    (hp : Stated p) (hf : FrontOk p p3 q f f2 f3)
    (hctl : ctl = .algebraic ∧ o.controlMethod = .algebraic ∨
      ctl = .differential o.method ∧ o.controlMethod = .differential)
    (hd : o.method ≠ .other) (hS : o.controlMethod = .algebraic → SolveSound S)
    (h : runSteps S ([.dualize o.method, ctl] ++ (if o.normalizeTime then [.normalizeTime] else []) ++ [.squash] ++
        (if o.analyticalJacobian && o.controlMethod ≠ .algebraic then [.jacobians] else [])) q = .ok p')
    {B : ℝ → ℝ → ℝ → ℝ → ℝ} (hocp : ∀ U Q, Completes U p Q →
      ocpOf U p.ind (p.states.map fun d => ⟨d.name, f3 (f2 (f d.eom))⟩) p.constants q = userOcp U Q B p) :
      ∀ U Q, Completes U p Q → ∀ ε η a b ρ, 0 ≤ ε → η = (if o.controlMethod = .algebraic then 0 else ε) → a ≤ b →
        NearlySolves U p' ε a b ρ → Regular S U q p' a b ρ →
        ∀ c, c = (if o.normalizeTime then ρ a ("_delta_" ++ p.ind) else 1) → 0 < c →
          NearExtremal (userOcp U Q B p) ε η (ρ a p.ind) (ρ a p.ind + c * (b - a)) (fun s => ρ (a + (s - ρ a p.ind) / c))
            (fun s n => ρ (a + (s - ρ a p.ind) / c) ("_lam_" ++ n)) (fun i => ρ a ("_nu_0_" ++ toString i))
            (fun i => ρ a ("_nu_f_" ++ toString i)) := by
  intro U Q hQ ε η a b ρ hε hη hab hs hr c hc hpos
  obtain ⟨h1, hfixed, hfree⟩ := hf.dual hL hp hctl hd hS h hε hη hab hs hr hc hpos
  rw [← hocp U Q hQ]
  refine hf.extremal_of hp hab h1 (fun s h0 n1 n2 n3 n4 => hfixed s n1 ?_ n2 ?_ n3 n4) hfree hr.rates hr.start hr.stop
  · intro hh
    obtain ⟨d, -, e⟩ := List.mem_map.1 hh
    exact h0 _ e.symm
  · intro hh
    obtain ⟨d, -, e⟩ := List.mem_map.1 hh
    exact h0 _ e.symm

/-- Every solution of the boundary value problem that `make_indirect_method` generates, read at the user's time, satisfies
the first-order necessary conditions of the problem that the user stated: equations of motion, adjoint equations,
stationarity, boundary conditions, transversality, and the conditions at both end times.  The costates are the values of
the generated `_lam_` symbols, the multipliers those of the generated `_nu_` symbols.

Missing from the full property: parameters (see `C64_parameters_partial` and `C64_violated_parameters`), quadratures, one-sided
constraints (they are dropped on the path and taken as equalities at the ends), and names that clash with generated ones.
For `momentumShift` switched off see `C64_unshifted_partial` and `C64_violated_unshifted`. -/
theorem C64_extremal_partial {S : Sympy} (hL : LuSound S) {o : Opts} {p p' : Prob} (hp : Stated p)
    (hm : o.momentumShift = true) (hd : o.method ≠ .other) (hS : o.controlMethod = .algebraic → SolveSound S)
    (h : indirect S o p = .ok p') :
    ∃ q B, primal S p = .ok q ∧ Barriers B ∧
      ∀ U Q, Completes U p Q → ∀ a b ρ, a ≤ b → Solves U p' a b ρ → Regular S U q p' a b ρ →
        ∀ c, c = (if o.normalizeTime then ρ a ("_delta_" ++ p.ind) else 1) → 0 < c →
          Extremal (userOcp U Q B p) (ρ a p.ind) (ρ a p.ind + c * (b - a)) (fun s => ρ (a + (s - ρ a p.ind) / c))
            (fun s n => ρ (a + (s - ρ a p.ind) / c) ("_lam_" ++ n)) (fun i => ρ a ("_nu_0_" ++ toString i))
            (fun i => ρ a ("_nu_f_" ++ toString i)) := by
  obtain ⟨q, ctl, hq, hctl, h⟩ := indirect_split hm h
  obtain ⟨p3, f, f2, f3, hf⟩ := front hp hq
  obtain ⟨B, hB, hocp⟩ := hf.ocp
  refine ⟨q, B, hq, hB, fun U Q hQ a b ρ hab hs hr c hc hpos => ?_⟩
  exact nearExtremal_zero.1 (hf.extremal hL hp hctl hd hS h hocp U Q hQ 0 0 a b ρ (le_refl _) (by simp) hab
    (nearlySolves_zero.2 hs) hr c hc hpos)

/-! ### A concrete case

Minimise `∫ 1 + u²` from `x = 0`, `t = 0` to `x = 1` with `x' = u`; the integrand uses a quantity, and the terminal
point has a two-sided constraint.  The optimum is `u = 1`. -/

def exP : Prob := {
  ind := "t"
  states := [⟨"x", sym "u"⟩]
  controls := ["u"]
  constants := ["eps"]
  quantities := [⟨"E", sym "u" * sym "u", []⟩]
  costPath := 1 + sym "E"
  initial := [{ expr := sym "x" }, { expr := sym "t" }]
  terminal := [{ expr := sym "x" - 1 },
    { expr := sym "x", lower := some (num (-1)), upper := some 3, activator := some (sym "eps"), method := .utm }] }

/-- A solver that knows one equation. -/
def exS : Sympy where
  solve eqs syms := if eqs = [hamiltonianOf (1 + sym "u" * sym "u") [⟨"x", sym "u"⟩, ⟨"t", 1⟩]].map (Expr.diff "u") ∧ syms = ["u"]
    then [[("u", -(sym "_lam_x") / 2)]] else []
  lu := cramerLu
  integrate _ _ := 0

def exO : Opts := { controlMethod := .algebraic }

def exP' : Prob := match indirect exS exO exP with
  | .ok p => p
  | .error _ => {}

theorem exP'_ok : indirect exS exO exP = .ok exP' := by
  have : (match indirect exS exO exP with | .ok _ => true | .error _ => false) = true := by decide +kernel
  rw [exP']
  cases h : indirect exS exO exP with
  | ok p => rfl
  | error e => rw [h] at this; cases this

def exCurve (τ : ℝ) (s : Name) : ℝ :=
  if s = "x" ∨ s = "t" ∨ s = "_tau" then τ else if s = "u" ∨ s = "_delta_t" ∨ s = "E" then 1
  else if s = "_lam_x" ∨ s = "_nu_f_0" then -2 else if s = "_nu_0_0" then 2 else 0

def exQ (σ : Env) : Env := fun s => if s = "E" then σ "u" * σ "u" else σ s

/-- Reserved names can be recognised. -/
theorem reserved_iff (s : Name) : Reserved s ↔ "_lam_".toList <+: s.toList ∨ "_nu_0_".toList <+: s.toList ∨
    "_nu_f_".toList <+: s.toList ∨ "_delta".toList <+: s.toList ∨ s = "_tau" := by
  have key : ∀ pre : String, (∃ n, s = pre ++ n) ↔ pre.toList <+: s.toList := by
    intro pre
    constructor
    · rintro ⟨n, rfl⟩
      rw [String.toList_append]
      exact List.prefix_append _ _
    · rintro ⟨l, hl⟩
      refine ⟨String.ofList l, String.toList_injective ?_⟩
      rw [String.toList_append, String.toList_ofList, hl]
  rw [Reserved, key, key, key, key]

instance (s : Name) : Decidable (Reserved s) := decidable_of_iff _ (reserved_iff s).symm

instance (p : Prob) (s : Name) : Decidable (Plain p s) := inferInstanceAs (Decidable (_ ∧ _))

theorem exP_stated : Stated exP where
  costates := rfl
  coparameters := rfl
  parameters := rfl
  quads := rfl
  law := rfl
  acyclic := ⟨fun _ => 0, by decide⟩
  reg := ⟨rfl, by decide, by decide, by decide, by simp [exP], by decide, by decide⟩
  inside := by decide
  ends := by decide
  bounds := by simp [exP]
  flat := by simp [exP]
  names := by decide
  trig := by decide +kernel
  plain := by decide +kernel
  free := by decide +kernel
  ind := by decide +kernel

theorem exS_sound : SolveSound exS := by
  intro U eqs syms sol hs σ hσ e he
  simp only [exS] at hs
  split at hs
  · next hc =>
    obtain ⟨rfl, rfl⟩ := hc
    simp only [List.mem_singleton] at hs
    subst hs
    obtain ⟨e', h1, -, h3⟩ := hσ "u" (by simp)
    cases h1
    simp only [List.map_cons, List.map_nil, List.mem_singleton] at he
    subst he
    simp [hamiltonianOf, diff, eval, lamName] at h3 ⊢
    rw [h3]
    ring
  · cases hs

/-- The problem before dualisation. -/
def exq : Prob := match primal exS exP with
  | .ok p => p
  | .error _ => {}

theorem exq_ok : primal exS exP = .ok exq := by
  have : (match primal exS exP with | .ok _ => true | .error _ => false) = true := by decide +kernel
  rw [exq]
  cases h : primal exS exP with
  | ok p => rfl
  | error e => rw [h] at this; cases this

theorem exq_states : exq.states = [⟨"x", sym "u"⟩, ⟨"t", 1⟩] := by decide +kernel
theorem exq_costPath : exq.costPath = 1 + sym "u" * sym "u" := by decide +kernel
theorem exq_costInitial : exq.costInitial = 0 := by decide +kernel
theorem exq_costTerminal : exq.costTerminal = 0 + utmTerm (sym "eps") (sym "x") (num (-1)) 3 := by decide +kernel
theorem exq_initial : exq.initial = [{ expr := sym "x" }, { expr := sym "t" }] := by decide +kernel
theorem exq_terminal : exq.terminal = [{ expr := sym "x" - 1 }] := by decide +kernel
theorem exq_controls : exq.controls = ["u"] := by decide +kernel

theorem exP'_states : exP'.states = [⟨"x", sym "u" * sym "_delta_t"⟩, ⟨"t", 1 * sym "_delta_t"⟩,
    ⟨"_lam_x", -((hexpr exq).diff "x") * sym "_delta_t"⟩, ⟨"_lam_t", -((hexpr exq).diff "t") * sym "_delta_t"⟩] := by
  decide +kernel
theorem exP'_initial : exP'.initial.map Con.expr = [sym "x", sym "t", sym "_lam_x" + (phi0 exq).diff "x",
    sym "_lam_t" + (phi0 exq).diff "t"] := by decide +kernel
theorem exP'_terminal : exP'.terminal.map Con.expr = [sym "x" - 1, sym "_lam_x" - (phif exq).diff "x",
    sym "_lam_t" - (phif exq).diff "t", (phif exq).diff "_t" + hexpr exq] := by decide +kernel
theorem exP'_rest : exP'.controls = ["u"] ∧ exP'.controlLaw = [[-(sym "_lam_x") / 2]] ∧ exP'.quads = [] ∧
    exP'.ind = "_tau" := by decide +kernel

theorem exh : hexpr exq = 1 + sym "u" * sym "u" + sym "_lam_x" * sym "u" + sym "_lam_t" * 1 := by decide +kernel
theorem exphi0 : phi0 exq = 0 + sym "_nu_0_0" * sym "x" + sym "_nu_0_1" * sym "t" := by decide +kernel
theorem exphif : phif exq = 0 + utmTerm (sym "eps") (sym "x") (num (-1)) 3 + sym "_nu_f_0" * (sym "x" + num (-1) * 1) := by decide +kernel

theorem exCurve_const (s : Name) (h : s ≠ "x") (h2 : s ≠ "t") (h3 : s ≠ "_tau") : Moves 0 1 exCurve 0 s := by
  intro t _
  have : (fun τ => exCurve τ s) = fun _ => exCurve 0 s := by
    funext τ
    simp [exCurve, h, h2, h3]
  rw [this]
  exact hasDerivAt_const _ _

theorem exCurve_id (s : Name) (h : s = "x" ∨ s = "t" ∨ s = "_tau") : Moves 0 1 exCurve 1 s := by
  intro t _
  have : (fun τ => exCurve τ s) = fun τ => τ := by
    funext τ
    simp [exCurve, h]
  rw [this]
  exact hasDerivAt_id _

theorem exSolves (U : Name → Nat → ℝ → ℝ) : Solves U exP' 0 1 exCurve where
  follows := by
    intro t ht d hd
    rw [exP'_states, exh] at hd
    simp only [List.mem_cons, List.not_mem_nil, or_false] at hd
    rcases hd with rfl | rfl | rfl | rfl
    · have := exCurve_id "x" (by simp) t ht
      simpa [eval, exCurve] using this
    · have := exCurve_id "t" (by simp) t ht
      simpa [eval, exCurve] using this
    · have := exCurve_const "_lam_x" (by decide) (by decide) (by decide) t ht
      simpa [eval, diff, exCurve] using this
    · have := exCurve_const "_lam_t" (by decide) (by decide) (by decide) t ht
      simpa [eval, diff, exCurve] using this
  fixed := by
    intro s h1 h2 h3 h4
    rw [exP'_states] at h1
    rw [exP'_rest.2.2.2] at h4
    simp only [List.map_cons, List.mem_cons, not_or] at h1
    exact exCurve_const s h1.1 h1.2.1 h4
  law := by
    intro _ t _
    rw [exP'_rest.1, exP'_rest.2.1]
    refine ⟨_, List.mem_singleton_self _, ?_⟩
    simp [eval, exCurve]
  initial := by
    intro c hc
    have : c.expr ∈ exP'.initial.map Con.expr := List.mem_map.2 ⟨c, hc, rfl⟩
    rw [exP'_initial, exphi0] at this
    simp only [List.mem_cons, List.not_mem_nil, or_false] at this
    rcases this with h | h | h | h <;> rw [h] <;> simp [eval, diff, exCurve]
  terminal := by
    intro c hc
    have : c.expr ∈ exP'.terminal.map Con.expr := List.mem_map.2 ⟨c, hc, rfl⟩
    rw [exP'_terminal, exphif, exh] at this
    simp only [List.mem_cons, List.not_mem_nil, or_false] at this
    rcases this with h | h | h | h <;> rw [h] <;> simp [eval, diff, exCurve, utmTerm]; norm_num

theorem exQ_completes (U : Name → Nat → ℝ → ℝ) : Completes U exP exQ where
  off := by
    intro σ s hs
    simp [definedNames, exP, epsControls] at hs
    simp [exQ, hs]
  quantities := by
    intro σ d hd
    simp [exP] at hd
    subst hd
    simp [exQ, eval]
  switches := by simp [exP]
  trig := by simp [TrigEnv, exP]

theorem smooth_sub {U : Name → Nat → ℝ → ℝ} {ρ : Env} {a b : Expr} (ha : Smooth U ρ a) (hb : Smooth U ρ b) :
    Smooth U ρ (a - b) := ⟨ha, trivial, hb⟩

theorem smooth_utm {U : Name → Nat → ℝ → ℝ} {ρ : Env} (h : ρ "x" = 0 ∨ ρ "x" = 1) :
    Smooth U ρ (utmTerm (sym "eps") (sym "x") (num (-1)) 3) := by
  refine ⟨trivial, smooth_sub ⟨trivial, ⟨⟨⟨⟨trivial, trivial, ?_⟩, smooth_sub (smooth_sub ⟨trivial, trivial⟩ trivial) trivial⟩,
    smooth_sub trivial trivial, ?_⟩, trivial⟩, ?_⟩ trivial⟩
  · simp [eval]
  · simp [eval]; norm_num
  · have key : Real.cos (Real.pi / 2 * (2 * ρ "x" - 3 - (-1)) / (3 - (-1))) ≠ 0 := by
      rcases h with h | h <;> rw [h]
      · have e : Real.pi / 2 * (2 * 0 - 3 - (-1)) / (3 - (-1)) = -(Real.pi / 4) := by ring
        rw [e, Real.cos_neg, Real.cos_pi_div_four]
        positivity
      · norm_num
    have e1 : ∀ v, (real U).fn .cos v = Real.cos v := fun _ => rfl
    have e2 : (real U).pi = Real.pi := rfl
    simpa [eval, e1, e2] using key

theorem exRates (U : Name → Nat → ℝ → ℝ) (ρ : Env) : SmoothRates exq U ρ := by
  rw [SmoothRates, exq_costPath, exq_states]
  refine ⟨⟨trivial, trivial, trivial⟩, ?_⟩
  intro s hs
  simp only [List.mem_cons, List.not_mem_nil, or_false] at hs
  rcases hs with rfl | rfl <;> trivial

theorem exEnds (U : Name → Nat → ℝ → ℝ) {ρ : Env} (h : ρ "x" = 0 ∨ ρ "x" = 1) : SmoothEnds exq U ρ := by
  rw [SmoothEnds, exq_costInitial, exq_costTerminal, exq_initial, exq_terminal]
  refine ⟨trivial, ⟨trivial, smooth_utm h⟩, ?_⟩
  intro c hc
  simp only [List.mem_append, List.mem_cons, List.not_mem_nil, or_false] at hc
  rcases hc with (rfl | rfl) | rfl
  · trivial
  · trivial
  · exact smooth_sub trivial trivial

theorem exRegular (U : Name → Nat → ℝ → ℝ) : Regular exS U exq exP' 0 1 exCurve where
  rates := fun t _ => exRates U _
  start := (exEnds U (by simp [exCurve])).start
  stop := (exEnds U (by simp [exCurve])).stop
  ham := by
    intro t _ u _
    rw [exh]
    simp only [diff]
    refine ⟨⟨⟨?_, ⟨?_, ?_⟩, ?_, ?_⟩, ⟨?_, ?_⟩, ?_, ?_⟩, ⟨?_, ?_⟩, ?_, ?_⟩ <;> (try split) <;> trivial
  defined := by
    intro t _ d hd
    rw [exP'_states, exh] at hd
    simp only [List.mem_cons, List.not_mem_nil, or_false] at hd
    rcases hd with rfl | rfl | rfl | rfl
    · exact ⟨trivial, trivial⟩
    · exact ⟨trivial, trivial⟩
    · exact ⟨⟨trivial, ⟨⟨trivial, ⟨trivial, trivial⟩, trivial, trivial⟩, ⟨trivial, trivial⟩, trivial, trivial⟩,
        ⟨trivial, trivial⟩, trivial, trivial⟩, trivial⟩
    · exact ⟨⟨trivial, ⟨⟨trivial, ⟨trivial, trivial⟩, trivial, trivial⟩, ⟨trivial, trivial⟩, trivial, trivial⟩,
        ⟨trivial, trivial⟩, trivial, trivial⟩, trivial⟩
  law := by
    intro t _ opt ho e he
    rw [exP'_rest.2.1, List.mem_singleton] at ho
    subst ho
    rw [List.mem_singleton] at he
    subst he
    refine ⟨⟨trivial, trivial⟩, trivial, ?_⟩
    simp [eval]
  controls := by
    intro t ht u hu
    rw [exP'_rest.1, List.mem_singleton] at hu
    subst hu
    exact (exCurve_const "u" (by decide) (by decide) (by decide) t ht).differentiableAt
  form := by
    intro om ho
    rw [(by decide +kernel : exP'.omega = none)] at ho
    cases ho

/-- The straight line with unit speed is an extremal, with costate -2 and multiplier -2 for the terminal condition. -/
example (U : Name → Nat → ℝ → ℝ) : ∃ B, Barriers B ∧
    Extremal (userOcp U exQ B exP) 0 1 exCurve (fun s n => exCurve s ("_lam_" ++ n))
      (fun i => exCurve 0 ("_nu_0_" ++ toString i)) (fun i => exCurve 0 ("_nu_f_" ++ toString i)) := by
  obtain ⟨q, B, hq, hB, h⟩ := C64_extremal_partial (luSound_cramer exS rfl) exP_stated (o := exO) rfl (by decide)
    (fun _ => exS_sound) exP'_ok
  rw [exq_ok] at hq
  cases hq
  have := h U exQ (exQ_completes U) 0 1 exCurve (by norm_num) (exSolves U) (exRegular U) 1 (by
    have : "_delta_" ++ exP.ind = "_delta_t" := rfl
    rw [this]; simp [exO, exCurve]) (by norm_num)
  have e : exCurve 0 exP.ind = 0 := by simp [exP, exCurve]
  simp only [e, sub_zero, div_one, zero_add, one_mul] at this
  exact ⟨B, hB, this⟩

end Beluga.Opt
