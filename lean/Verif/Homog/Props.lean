import Verif.Homog.Control

/-! # Dimensional consistency survives the symbolic transformations (C63) -/

namespace Beluga.Homog

open Beluga.Sym Beluga.Sym.Expr Beluga.Num

variable {U : Name → Nat → ℝ → ℝ} {Γ : Name → Expr}

/-! ### Lemmas -/

theorem runU_append (S : Sympy) : ∀ (a b : List Step) (x : Prob × Tab), runU S (a ++ b) x = (runU S a x >>= runU S b)
  | [], b, x => rfl
  | s :: a, b, x => by
    rw [List.cons_append, runU, runU]
    cases s.run S x.1 with
    | error e => rfl
    | ok p => exact runU_append S a b _

theorem units_decl (s : Step) (p : Prob) (T : Tab) : ∀ x ∈ T.decl, x ∈ (Step.units s p T).decl := by
  intro x hx
  cases s with
  | momentumShift => exact List.mem_append_left _ hx
  | epsTrig =>
    rw [Step.units, uEps]
    split
    · exact hx
    · split
      · exact List.mem_append_left _ hx
      · exact hx
  | utm =>
    rw [Step.units, uUtm]
    split <;> exact hx
  | dualize m => simp [Step.units, uDualize, hx]
  | differential m =>
    cases m
    · exact hx
    · exact List.mem_append_left _ hx
    · exact hx
  | normalizeTime => exact List.mem_append_left _ hx
  | _ => exact hx

theorem runU_agrees {S : Sympy} : ∀ {ss : List Step} {x y : Prob × Tab}, runU S ss x = .ok y → Agrees Γ y.2 → Agrees Γ x.2
  | [], x, y, h, ha => by cases h; exact ha
  | s :: ss, x, y, h, ha => by
    rw [runU] at h
    obtain ⟨p, hp, h⟩ := bind_ok h
    exact fun z hz => runU_agrees h ha z (units_decl s x.1 x.2 z hz)

theorem runU_run {S : Sympy} : ∀ (ss : List Step) (x : Prob × Tab), (runU S ss x).map Prod.fst = runSteps S ss x.1
  | [], x => rfl
  | s :: ss, x => by
    rw [runU, runSteps_cons]
    cases s.run S x.1 with
    | error e => rfl
    | ok p => exact runU_run ss (p, Step.units s x.1 x.2)

/-- What holds before `Dualize`. -/
structure Pre (U : Name → Nat → ℝ → ℝ) (Γ : Name → Expr) (w : Expr) (pars : List Name) (p : Prob) (T : Tab) : Prop where
  consistent : Consistent U Γ w p T
  fresh : Fresh p
  time : SameUnit U (Γ p.ind) w
  pars : p.parameters = pars

theorem pre_run {S : Sympy} {w : Expr} {pars : List Name} (hΓ : ∀ s, IsUnit U (Γ s)) :
    ∀ {ss : List Step} {x y : Prob × Tab}, (∀ s ∈ ss, s ∈ [Step.epsTrig, .utm, .rashs]) → runU S ss x = .ok y →
      Agrees Γ y.2 → Pre U Γ w pars x.1 x.2 → Pre U Γ w pars y.1 y.2 ∧ (LastTime U Γ x.1 → LastTime U Γ y.1)
  | [], x, y, _, h, ha, hx => by cases h; exact ⟨hx, id⟩
  | s :: ss, x, y, hs, h, ha, hx => by
    rw [runU] at h
    obtain ⟨p, hp, h⟩ := bind_ok h
    have ha' := runU_agrees h ha
    have key : Consistent U Γ w p (Step.units s x.1 x.2) ∧ Same x.1 p := by
      have := hs s (by simp)
      simp only [List.mem_cons, List.not_mem_nil, or_false] at this
      rcases this with rfl | rfl | rfl
      · exact eps_homog hx.time hx.consistent hx.fresh ha' hp
      · exact utm_homog hΓ hx.time hx.consistent hp
      · exact rashs_homog hx.consistent hp
    obtain ⟨h1, h2⟩ := pre_run hΓ (fun s hm => hs s (by simp [hm])) h ha
      ⟨key.1, key.2.fresh hx.fresh, by rw [key.2.ind]; exact hx.time, key.2.parameters.trans hx.pars⟩
    refine ⟨h1, fun hl => h2 ?_⟩
    obtain ⟨l, n, e1, e2⟩ := hl
    exact ⟨l, n, key.2.names.trans e1, by rw [show p.ind = x.1.ind from key.2.ind]; exact e2⟩

theorem ineq_mem {cons : List Con} {ss : List Step} (h : ineqSteps cons = .ok ss) : ∀ s ∈ ss, s = .epsTrig ∨ s = .utm := by
  intro s hs
  obtain ⟨c, -, hc⟩ := forall₂_mem_right (mapM_forall₂ h) hs
  split at hc
  · cases hc; exact .inl rfl
  · cases hc; exact .inr rfl
  · cases hc

theorem steps_ok {o : Opts} {q : Prob} {ss : List Step} (h : indirectSteps o q = .ok ss) : ∃ ineq ctl,
    ineqSteps (q.initial ++ q.path ++ q.terminal) = .ok ineq ∧
    ((o.controlMethod = .algebraic ∧ ctl = .algebraic) ∨ (o.controlMethod = .differential ∧ ctl = .differential o.method)) ∧
    ss = (if o.momentumShift then [.momentumShift] else []) ++ ineq ++
      (if q.switches.length > 0 then [.rashs] else []) ++ [.dualize o.method, ctl] ++
      (if o.normalizeTime then [.normalizeTime] else []) ++ [.squash] ++
      (if o.analyticalJacobian && o.controlMethod ≠ .algebraic then [.jacobians] else []) := by
  rw [indirectSteps] at h
  obtain ⟨ineq, hineq, h⟩ := bind_ok h
  cases hc : o.controlMethod with
  | algebraic =>
    simp only [hc, bind, Except.bind, Except.ok.injEq] at h
    exact ⟨ineq, _, hineq, .inl ⟨rfl, rfl⟩, h.symm⟩
  | differential =>
    simp only [hc, bind, Except.bind, Except.ok.injEq] at h
    exact ⟨ineq, _, hineq, .inr ⟨rfl, rfl⟩, h.symm⟩
  | other => simp only [hc, bind, Except.bind] at h; cases h

/-! ### C63 -/

/-- Units change nothing in the transformation itself. -/
theorem C63_same (S : Sympy) (o : Opts) (p : Prob) (T : Tab) : (indirectU S o (p, T)).map Prod.fst = indirect S o p := by
  rw [indirectU, indirect]
  cases preprocess p with
  | error e => rfl
  | ok q =>
    change (indirectSteps o q >>= _).map Prod.fst = indirectSteps o q >>= _
    cases indirectSteps o q with
    | error e => rfl
    | ok ss => exact runU_run ss (q, T)

/-- **C63** (partial).  The indirect method turns a dimensionally consistent problem into one: with the units that the
functors declare, state and costate rates have the unit of the variable per unit of the (possibly normalised)
independent variable, every boundary condition and bound has its declared unit, cost, Hamiltonian and control laws have
theirs.  Missing for the full property: quadratures and coparameters are consistent with the *original* time, which is the
independent variable of the result only without time normalisation (`C63_violated`); and user functions and tables are
not covered. -/
theorem C63_partial (hΓ : ∀ s, IsUnit U (Γ s)) {S : Sympy} (hL : LuDim U Γ S) (hS : LuSound S) {o : Opts}
    (halg : o.controlMethod = .algebraic → SolveDim U Γ S) (hm : o.method ≠ .other) {p p' : Prob} {T T' : Tab}
    (hdg : o.method = .diffyg → p.parameters = [] ∧ (o.controlMethod = .differential → o.momentumShift = true))
    (hf : Fresh p) (h : Consistent U Γ (Γ p.ind) p T) (hs : ∀ s ∈ p.switches, SwitchDim U Γ s)
    (hp : indirectU S o (p, T) = .ok (p', T')) (ha : Agrees Γ T') :
    Consistent U Γ (Γ p.ind) p' T' ∧ (o.normalizeTime = false → SameUnit U (Γ p'.ind) (Γ p.ind)) := by
  rw [indirectU] at hp
  obtain ⟨q, hq, hp⟩ := bind_ok hp
  obtain ⟨ss, hss, hp⟩ := bind_ok hp
  dsimp only at hq hss hp
  obtain ⟨h1, h2⟩ := preprocess_homog hΓ h hs hq
  obtain ⟨ineq, ctl, hineq, hctl, rfl⟩ := steps_ok hss
  generalize hsq : (if o.analyticalJacobian && o.controlMethod ≠ .algebraic then [Step.jacobians] else []) = jac at hp
  generalize hrs : (if q.switches.length > 0 then [Step.rashs] else []) = rs at hp
  simp only [List.append_assoc] at hp
  -- MomentumShift
  rw [runU_append] at hp
  obtain ⟨x1, hx1, hp⟩ := bind_ok hp
  have ha1 := runU_agrees hp ha
  have pre1 : Pre U Γ (Γ p.ind) p.parameters x1.1 x1.2 ∧ (o.momentumShift = true → LastTime U Γ x1.1) := by
    cases hms : o.momentumShift with
    | false =>
      rw [hms] at hx1
      cases hx1
      exact ⟨⟨h1, h2.fresh hf, by rw [h2.ind]; exact SameUnit.refl _, h2.parameters⟩, by simp⟩
    | true =>
      rw [hms, if_pos rfl, runU] at hx1
      obtain ⟨r, hr, hx1⟩ := bind_ok hx1
      cases hx1
      obtain ⟨k1, k2, k3, k4, k5, -⟩ := shift_homog hΓ (by rw [h2.ind]; exact SameUnit.refl _) h1 (h2.fresh hf) ha1 hr
      refine ⟨⟨k1, k2, k3, k5.trans h2.parameters⟩, fun _ => ⟨q.states.map Dyn.name, q.ind, ?_, ?_⟩⟩
      · rw [show r.states = _ from k4]; simp
      · rw [show q.ind = p.ind from h2.ind]
        exact SameUnit.symm k3
  -- the regularisations
  rw [← List.append_assoc ineq, runU_append] at hp
  obtain ⟨x2, hx2, hp⟩ := bind_ok hp
  have ha2 := runU_agrees hp ha
  obtain ⟨pre2, last2⟩ := pre_run hΓ (by
    intro s hs
    rcases List.mem_append.1 hs with hs | hs
    · rcases ineq_mem hineq s hs with rfl | rfl <;> simp
    · rw [← hrs] at hs
      split at hs
      · simp at hs; simp [hs]
      · simp at hs) hx2 ha2 pre1.1
  -- Dualize
  rw [runU_append] at hp
  obtain ⟨x4, hx4, hp⟩ := bind_ok hp
  have ha4 := runU_agrees hp ha
  rw [runU] at hx4
  obtain ⟨p3, hp3, hx4⟩ := bind_ok hx4
  have ha3 := runU_agrees hx4 ha4
  rw [runU] at hx4
  obtain ⟨p4, hp4, hx4⟩ := bind_ok hx4
  cases hx4
  dsimp only at ha3 hp4 hp3 ha4
  obtain ⟨d1, d2, d3, d4, d5, -⟩ := dualize_homog hΓ hL hS hm (fun e => pre2.pars.trans (hdg e).1) pre2.time pre2.consistent pre2.fresh ha3 hp3
  -- the control law
  have c4 : Consistent U Γ (Γ p.ind) p4 (Step.units ctl p3 (Step.units (.dualize o.method) x2.1 x2.2)) ∧ p4.ind = p3.ind := by
    rcases hctl with ⟨hcm, rfl⟩ | ⟨hcm, rfl⟩
    · obtain ⟨k1, k2, -⟩ := algebraic_homog hΓ (halg hcm) d1 hp4
      exact ⟨k1, k2⟩
    · obtain ⟨k1, k2, -⟩ := differential_homog hΓ hL hS (m := o.method) (fun e => by
        obtain ⟨l, n, e1, e2⟩ := last2 (pre1.2 ((hdg e).2 hcm))
        exact ⟨l, n, by rw [d4]; exact e1, by rw [d3]; exact e2⟩) d1 d2 ha4 hp4
      exact ⟨k1, k2⟩
  -- NormalizeTime
  rw [runU_append] at hp
  obtain ⟨x5, hx5, hp⟩ := bind_ok hp
  have ha5 := runU_agrees hp ha
  have c5 : Consistent U Γ (Γ p.ind) x5.1 x5.2 ∧ (o.normalizeTime = false → x5.1.ind = p4.ind) := by
    cases hnt : o.normalizeTime with
    | false =>
      rw [hnt] at hx5
      cases hx5
      exact ⟨c4.1, fun _ => rfl⟩
    | true =>
      rw [hnt, if_pos rfl, runU] at hx5
      obtain ⟨r, hr, hx5⟩ := bind_ok hx5
      cases hx5
      exact ⟨(normalize_homog hΓ c4.1 ha5 hr).1, by simp⟩
  -- SquashToBVP
  rw [List.singleton_append, runU] at hp
  obtain ⟨p6, hp6, hp⟩ := bind_ok hp
  obtain ⟨c6, i6⟩ := squash_homog c5.1 hp6
  have fin : Consistent U Γ (Γ p.ind) p' T' ∧ p'.ind = p6.ind := by
    rw [← hsq] at hp
    split at hp
    · rw [runU] at hp
      obtain ⟨r, hr, hp⟩ := bind_ok hp
      cases hp
      exact jacobians_homog c6 hr
    · cases hp
      exact ⟨c6, rfl⟩
  refine ⟨fin.1, fun hn => ?_⟩
  rw [fin.2, i6, c5.2 hn, c4.2, d3]
  exact pre2.time

/-- **C63**: what that means for autoscaling.  If the problem given to the indirect method is consistent, then dividing
every quantity by the size of its declared unit maps curves that follow the resulting equations to curves that follow
them, and points that satisfy the resulting boundary conditions to such points. -/
theorem C63_scaling (hΓ : ∀ s, IsUnit U (Γ s)) {S : Sympy} (hL : LuDim U Γ S) (hS : LuSound S) {o : Opts}
    (halg : o.controlMethod = .algebraic → SolveDim U Γ S) (hm : o.method ≠ .other) {p p' : Prob} {T T' : Tab}
    (hdg : o.method = .diffyg → p.parameters = [] ∧ (o.controlMethod = .differential → o.momentumShift = true))
    (hf : Fresh p) (h : Consistent U Γ (Γ p.ind) p T) (hs : ∀ s ∈ p.switches, SwitchDim U Γ s)
    (hp : indirectU S o (p, T) = .ok (p', T')) (ha : Agrees Γ T') {φ : Name → ℝ} (hφ : ∀ s, 0 < φ s) :
    (∀ (a b : ℝ) (ρ : ℝ → Name → ℝ), Follows U p'.states 1 (a / eval (real U) φ (Γ p'.ind)) (b / eval (real U) φ (Γ p'.ind))
      (fun τ => scaled U Γ φ (ρ (τ * eval (real U) φ (Γ p'.ind)))) ↔ Follows U p'.states 1 a b ρ) ∧
    ∀ ρ : Name → ℝ, (Holds U (scaled U Γ φ ρ) p'.initial ↔ Holds U ρ p'.initial) ∧
      (Holds U (scaled U Γ φ ρ) p'.terminal ↔ Holds U ρ p'.terminal) := by
  obtain ⟨h1, -⟩ := C63_partial hΓ hL hS halg hm hdg hf h hs hp ha
  have hz : Sizes U Γ φ := ⟨hφ, hΓ⟩
  refine ⟨fun a b ρ => C18_follow_partial hz (fun d hd => h1.dyn d (List.mem_append_left _ hd)) a b ρ, fun ρ =>
    ⟨C18_condition hz ρ fun c hc => ?_, C18_condition hz ρ fun c hc => ?_⟩⟩
  · obtain ⟨i, hi, e⟩ := List.mem_iff_getElem.1 hc
    obtain ⟨u, -, hu⟩ := forall₂_getElem? h1.initial (e ▸ List.getElem?_eq_getElem hi)
    exact ⟨u, hu.expr⟩
  · obtain ⟨i, hi, e⟩ := List.mem_iff_getElem.1 hc
    obtain ⟨u, -, hu⟩ := forall₂_getElem? h1.terminal (e ▸ List.getElem?_eq_getElem hi)
    exact ⟨u, hu.expr⟩

/-! ### A concrete problem -/

def mtr : Expr := sym "m"
def sec : Expr := sym "s"

/-- Units of the problem. -/
def exT : Tab where
  decl := [("t", sec), ("x", mtr), ("u", mtr / sec), ("a", mtr / sec), ("xf", mtr)]
  cost := mtr * mtr / sec
  initial := [mtr]
  path := []
  terminal := [mtr]

/-- `x' = u + a` with the parameter `a`, path cost `u * u`, from `x = 0` to `x = xf`. -/
def exP : Prob where
  ind := "t"
  states := [⟨"x", sym "u" + sym "a"⟩]
  parameters := ["a"]
  controls := ["u"]
  costPath := sym "u" * sym "u"
  initial := [{ expr := sym "x" }]
  terminal := [{ expr := sym "x" - sym "xf" }]
  constants := ["xf"]

def exCost : Expr := mtr * mtr / sec

/-- All units after the transformation. -/
def exDecl : List (Name × Expr) :=
  [("t", sec), ("x", mtr), ("u", mtr / sec), ("a", mtr / sec), ("xf", mtr), ("_t", sec), ("_nu_0_0", exCost / mtr),
    ("_nu_f_0", exCost / mtr), ("_lam_x", exCost / mtr), ("_lam_t", exCost / sec), ("_lam_a", exCost / (mtr / sec)),
    ("_delta_t", sec), ("_tau", 1)]

def exΓ (n : Name) : Expr := (exDecl.lookup n).getD 1

theorem exΓ_unit (s : Name) : IsUnit U (exΓ s) := by
  have hm : IsUnit U mtr := fun φ hφ => hφ "m"
  have hs : IsUnit U sec := fun φ hφ => hφ "s"
  have hc : IsUnit U exCost := IsUnit.div (IsUnit.mul hm hm) hs
  rw [exΓ]
  cases hl : exDecl.lookup s with
  | none => exact isUnit_one
  | some d =>
    obtain ⟨l1, l2, e, -⟩ := List.lookup_eq_some_iff.1 hl
    have : (s, d) ∈ exDecl := by rw [e]; simp
    simp only [exDecl, List.mem_cons, Prod.mk.injEq, List.not_mem_nil, or_false] at this
    rw [Option.getD_some]
    have h2 : IsUnit U (exCost / mtr) := IsUnit.div hc hm
    have h3 : IsUnit U (exCost / sec) := IsUnit.div hc hs
    have h4 : IsUnit U (mtr / sec) := IsUnit.div hm hs
    have h5 : IsUnit U (exCost / (mtr / sec)) := IsUnit.div hc h4
    have h6 : IsUnit U 1 := isUnit_one
    rcases this with ⟨-, rfl⟩ | ⟨-, rfl⟩ | ⟨-, rfl⟩ | ⟨-, rfl⟩ | ⟨-, rfl⟩ | ⟨-, rfl⟩ | ⟨-, rfl⟩ | ⟨-, rfl⟩ | ⟨-, rfl⟩ | ⟨-, rfl⟩ |
      ⟨-, rfl⟩ | ⟨-, rfl⟩ | ⟨-, rfl⟩ <;> assumption

theorem exCost_unit : IsUnit U exT.cost :=
  IsUnit.div (IsUnit.mul (a := mtr) (b := mtr) (fun _ hφ => hφ "m") fun _ hφ => hφ "m") (b := sec) fun _ hφ => hφ "s"

theorem exP_consistent : Consistent U exΓ (exΓ exP.ind) exP exT where
  dyn d hd := by
    have : d = ⟨"x", sym "u" + sym "a"⟩ := by simpa [exP] using hd
    subst this
    exact .add (.sym "u") (.sym "a")
  quad d hd := by simp [exP] at hd
  initial := .cons (ConDim.plain (.sym "x")) .nil
  path := .nil
  terminal := .cons (ConDim.plain (Dim.sub (.sym "x") (.sym "xf"))) .nil
  costInitial := .zero exCost_unit
  costPath := .conv (.mul (.sym "u") (.sym "u")) fun φ hφ => by
    change eval (real U) φ (mtr / sec * (mtr / sec)) = eval (real U) φ (mtr * mtr / sec / sec)
    have := (hφ "s").ne'
    have : eval (real U) φ sec ≠ 0 := this
    simp only [eval_mul, eval_div]
    field_simp
  costTerminal := .zero exCost_unit
  quantities q hq := by simp [exP] at hq
  switches s hs := by simp [exP] at hs
  hamiltonian H hH := by simp [exP] at hH
  law o ho := by simp [exP] at ho
  named := by decide +kernel

/-- What is computed of the result. -/
def exCheck (o : Opts) : Bool :=
  match indirectU exSympy o (exP, exT) with
  | .ok r => (r.2.decl.all fun x => exΓ x.1 = x.2) && (r.1.quads = [⟨"_lam_a", -((hamiltonianOf (sym "u" * sym "u")
      [⟨"x", sym "u" + sym "a"⟩, ⟨"t", 1⟩]).diff "a")⟩]) && (r.1.states.map Dyn.name = ["x", "t", "u", "_lam_x", "_lam_t"]) &&
    (r.1.ind = if o.normalizeTime then "_tau" else "_t")
  | .error _ => false

theorem exRun {o : Opts} (h : exCheck o = true) : ∃ p' T', indirectU exSympy o (exP, exT) = .ok (p', T') ∧ Agrees exΓ T' ∧
    p'.quads = [⟨"_lam_a", -((hamiltonianOf (sym "u" * sym "u") [⟨"x", sym "u" + sym "a"⟩, ⟨"t", 1⟩]).diff "a")⟩] ∧
    p'.states.map Dyn.name = ["x", "t", "u", "_lam_x", "_lam_t"] ∧ p'.ind = if o.normalizeTime then "_tau" else "_t" := by
  rw [exCheck] at h
  split at h
  · next r hr =>
    simp only [Bool.and_eq_true, decide_eq_true_eq, List.all_eq_true] at h
    exact ⟨r.1, r.2, hr, h.1.1.1, h.1.1.2, h.1.2, h.2⟩
  · cases h

/-- The hypotheses of `C63_partial` are met, with and without time normalisation. -/
example (nt : Bool) : ∃ p' T', indirectU exSympy { normalizeTime := nt } (exP, exT) = .ok (p', T') ∧
    Consistent U exΓ (exΓ "t") p' T' ∧ p'.states.map Dyn.name = ["x", "t", "u", "_lam_x", "_lam_t"] := by
  have hc : exCheck { normalizeTime := nt } = true := by cases nt <;> decide +kernel
  obtain ⟨p', T', h1, h2, h3, h4, -⟩ := exRun hc
  exact ⟨p', T', h1, (C63_partial exΓ_unit (luDim_cramer _ rfl) exSympy_sound (fun h => by cases h) (by simp) (fun h => by cases h)
    ⟨rfl, rfl, rfl, rfl⟩ exP_consistent (fun s hs => by simp [exP] at hs) h1 h2).1, h4⟩

/-- A `solve` that respects units: one Newton step, exact for equations that are linear in the unknown. -/
example (hΓ : ∀ s, IsUnit U (Γ s)) : SolveDim U Γ
    ⟨fun eqs syms => [(eqs.zip syms).map fun es => (es.2, sym es.2 - es.1 / es.1.diff es.2)], cramerLu, fun _ _ => 0⟩ := by
  intro eqs syms he o ho x hx
  simp only [List.mem_singleton] at ho
  subst ho
  obtain ⟨⟨e, s⟩, hm, rfl⟩ := List.mem_map.1 hx
  obtain ⟨d, hd⟩ := he e (List.of_mem_zip hm).1
  refine Dim.sub (.sym s) (.conv (Dim.div hd (Dim.diff hΓ s hd)) fun φ hφ => ?_)
  have a1 := (Dim.isUnit hΓ hd φ hφ).ne'
  simp only [eval_div]
  field_simp

/-- **C63, violated by time normalisation.**  `NormalizeTime` neither multiplies the rates of quadratures and coparameters by the
duration nor adjusts their units, so in the result they are not rates in the dimensionless time: for the problem above,
the rate of the coparameter does not have the unit of the coparameter per unit of `_tau`. -/
theorem C63_violated : ∃ p' T', indirectU exSympy {} (exP, exT) = .ok (p', T') ∧ Agrees exΓ T' ∧
    Consistent U exΓ (exΓ exP.ind) exP exT ∧ p'.ind = "_tau" ∧ ∃ d ∈ p'.quads, ¬ Dim U exΓ d.eom (exΓ d.name / exΓ p'.ind) := by
  obtain ⟨p', T', h1, h2, h3, -, h4⟩ := exRun (o := {}) (by decide +kernel)
  refine ⟨p', T', h1, h2, exP_consistent, h4, _, by rw [h3]; exact List.mem_singleton_self _, fun hd => ?_⟩
  have hz : Sizes U exΓ (fun s => if s = "s" then 2 else 1) := ⟨fun s => by split <;> norm_num, exΓ_unit⟩
  have := C18_expression hz (fun _ => 1) hd
  have e1 : exΓ "_lam_x" = exCost / mtr := by decide +kernel
  have e2 : exΓ "_lam_a" = exCost / (mtr / sec) := by decide +kernel
  have e3 : exΓ p'.ind = 1 := by rw [h4]; decide +kernel
  have e4 : ∀ ρ : Name → ℝ, eval (real U) ρ (-((hamiltonianOf (sym "u" * sym "u")
      [⟨"x", sym "u" + sym "a"⟩, ⟨"t", 1⟩]).diff "a")) = -ρ "_lam_x" := by
    intro ρ
    rw [eval_neg]
    have h0 : lamName "x" = "_lam_x" := by decide +kernel
    have h1 : lamName "t" = "_lam_t" := by decide +kernel
    simp only [hamiltonianOf, List.foldl, h0, h1]
    change -(((0 : ℚ) : ℝ) * ρ "u" + ρ "u" * ((0 : ℚ) : ℝ) + (((0 : ℚ) : ℝ) * (ρ "u" + ρ "a") + ρ "_lam_x" * (((0 : ℚ) : ℝ) + ((1 : ℚ) : ℝ))) +
      (((0 : ℚ) : ℝ) * ((1 : ℚ) : ℝ) + ρ "_lam_t" * ((0 : ℚ) : ℝ))) = _
    simp
  rw [e4, e4, e2, e3] at this
  simp only [scaled, e1, exCost, mtr, sec, eval_div, eval] at this
  have ms : ("m" : String) ≠ "s" := by decide
  norm_num [ms] at this

end Beluga.Homog
