import Verif.Symbolic.OneSided
import Verif.Extremal.Converse
import Verif.EndToEnd.Props

/-!
# Problems with one-sided inequalities (C64, C65, C71, C72, C73)

`Verif.Symbolic.OneSided` shows that one-sided inequalities leave no trace in the generated problem.  Here the same for the
compiled functions and for the way back, and what follows for solutions: they are the extremals of the problem without the
one-sided path constraints, in which the one-sided boundary constraints are equalities.
-/

namespace Beluga.E2E

open Beluga.Sym Beluga.Sym.Expr Beluga.Num Beluga.Map Beluga.Opt Beluga.Rep

/-! ### Specification -/

/-- A problem as the documentation describes it that may have one-sided constraints, with the default method. -/
structure StatedOneSided (p : Prob) : Prop where
  usual : Usual p
  rest : Stated p.ignore

/-- The constraint as the user means it: at least the lower bound, at most the upper bound. -/
def Obeys (U : Name → Nat → ℝ → ℝ) (σ : Env) (c : Con) : Prop :=
  (∀ lo ∈ c.lower, eval (real U) σ lo ≤ eval (real U) σ c.expr) ∧ ∀ hi ∈ c.upper, eval (real U) σ c.expr ≤ eval (real U) σ hi

/-! ### Lemmas -/

theorem exprs_asEquality (l : List Con) : (l.map Con.asEquality).map Con.expr = l.map Con.expr := by
  rw [List.map_map]
  exact List.map_congr_left fun c _ => expr_asEquality c

theorem filter_twoSided_asEquality (l : List Con) : (l.map Con.asEquality).filter Con.twoSided = l.filter Con.twoSided := by
  induction l with
  | nil => rfl
  | cons c l ih =>
    rw [List.map_cons, List.filter_cons, List.filter_cons, twoSided_asEquality, ih]
    split
    · next hc => rw [Con.asEquality, if_pos hc]
    · rfl

theorem filter_not_asEquality (l : List Con) :
    ((l.map Con.asEquality).filter fun c => !c.twoSided).map Con.expr = (l.filter fun c => !c.twoSided).map Con.expr := by
  induction l with
  | nil => rfl
  | cons c l ih =>
    rw [List.map_cons, List.filter_cons, List.filter_cons, twoSided_asEquality]
    split
    · rw [List.map_cons, List.map_cons, ih, expr_asEquality]
    · exact ih

theorem epsControls_ignore {p : Prob} (h : Usual p) : epsControls p.ignore.path = epsControls p.path := by
  have key : ∀ l : List Con, (∀ c ∈ l, c.twoSided = false → c.method = .utm) →
      epsControls (l.filter Con.twoSided) = epsControls l := by
    intro l
    induction l with
    | nil => intro _; rfl
    | cons c l ih =>
      intro hl
      have ih := ih fun d hd => hl d (by simp [hd])
      rw [List.filter_cons]
      split
      · rw [epsControls, epsControls, List.filterMap_cons, List.filterMap_cons]
        rw [epsControls, epsControls] at ih
        rw [ih]
      · next hc =>
        rw [ih]
        have hm := hl c (by simp) (by simpa using hc)
        rw [epsControls, epsControls, List.filterMap_cons]
        rw [hm]
  exact key p.path h

theorem completes_ignore {p : Prob} (h : Usual p) {U : Name → Nat → ℝ → ℝ} {Q : Env → Env} :
    Completes U p.ignore Q ↔ Completes U p Q := by
  have hd : definedNames p.ignore = definedNames p := by
    rw [definedNames, definedNames, epsControls_ignore h]
    rfl
  have ht : ∀ σ, TrigEnv p.ignore U σ ↔ TrigEnv p U σ := by
    intro σ
    constructor
    · intro k c hc u lo hi hm he hl hh
      exact k c (List.mem_filter.2 ⟨hc, by simp [Con.twoSided, hl, hh]⟩) u lo hi hm he hl hh
    · intro k c hc
      exact k c (List.mem_filter.1 hc).1
  constructor
  · rintro ⟨k1, k2, k3, k4⟩
    exact ⟨fun σ s hs => k1 σ s (by rwa [hd]), k2, k3, fun σ => (ht _).1 (k4 σ)⟩
  · rintro ⟨k1, k2, k3, k4⟩
    exact ⟨fun σ s hs => k1 σ s (by rwa [hd] at hs), k2, k3, fun σ => (ht _).2 (k4 σ)⟩

theorem penalties_ignore (B : ℝ → ℝ → ℝ → ℝ → ℝ) (U : Name → Nat → ℝ → ℝ) (σ : Env) (l : List Con) :
    penalties B U σ (l.map Con.asEquality) = penalties B U σ l ∧ penalties B U σ (l.filter Con.twoSided) = penalties B U σ l := by
  rw [penalties, penalties, penalties, filter_twoSided_asEquality, List.filter_filter]
  simp

theorem userOcp_ignore {p : Prob} (h : Usual p) (U : Name → Nat → ℝ → ℝ) (Q : Env → Env) (B : ℝ → ℝ → ℝ → ℝ → ℝ) :
    userOcp U Q B p.ignore = userOcp U Q B p := by
  have hx : ∀ l : List Con, ((l.map Con.asEquality).filter fun c => !c.twoSided).map (fun c σ => eval (real U) (Q σ) c.expr) =
      (l.filter fun c => !c.twoSided).map fun c σ => eval (real U) (Q σ) c.expr := by
    intro l
    have := congrArg (List.map fun e σ => eval (real U) (Q σ) e) (filter_not_asEquality l)
    rw [List.map_map, List.map_map] at this
    exact this
  have e1 : p.ignore.initial = p.initial.map Con.asEquality := rfl
  have e2 : p.ignore.terminal = p.terminal.map Con.asEquality := rfl
  have e3 : p.ignore.path = p.path.filter Con.twoSided := rfl
  rw [userOcp, userOcp, epsControls_ignore h, e1, e2, e3, hx, hx]
  simp only [penalties_ignore]
  rfl

theorem primal_ignore (S : Sympy) {p : Prob} (h : Usual p) : Sim (primal S p) (primal S p.ignore) := by
  obtain ⟨h1, h2⟩ := sim_preprocess h
  rw [primal, primal, h1]
  cases hp : preprocess p with
  | error e => exact Sim.error _
  | ok q =>
    change Sim (ineqSteps (q.initial ++ q.path ++ q.terminal) >>= _)
      (ineqSteps (q.ignore.initial ++ q.ignore.path ++ q.ignore.terminal) >>= _)
    rw [ineqSteps_ignore]
    cases ineqSteps (q.initial ++ q.path ++ q.terminal) with
    | error e => exact Sim.error _
    | ok st => exact sim_runSteps S _ (h2 q hp)

theorem indirect_ignore (S : Sympy) (o : Opts) {p p' : Prob} (h : Usual p) (hi : indirect S o p = .ok p') :
    indirect S o p.ignore = .ok p'.ignore := by
  rw [C65_violated S o h, hi]
  rfl

theorem smoothStart_ignore {q : Prob} {U : Name → Nat → ℝ → ℝ} {σ : Env} : SmoothStart q.ignore U σ ↔ SmoothStart q U σ := by
  have key : (∀ c ∈ q.ignore.initial, Smooth U σ c.expr) ↔ ∀ c ∈ q.initial, Smooth U σ c.expr := by
    change (∀ c ∈ q.initial.map Con.asEquality, _) ↔ _
    simp only [List.forall_mem_map, expr_asEquality]
  rw [SmoothStart, SmoothStart, key]
  rfl

theorem smoothStop_ignore {q : Prob} {U : Name → Nat → ℝ → ℝ} {σ : Env} : SmoothStop q.ignore U σ ↔ SmoothStop q U σ := by
  have key : (∀ c ∈ q.ignore.terminal, Smooth U σ c.expr) ↔ ∀ c ∈ q.terminal, Smooth U σ c.expr := by
    change (∀ c ∈ q.terminal.map Con.asEquality, _) ↔ _
    simp only [List.forall_mem_map, expr_asEquality]
  rw [SmoothStop, SmoothStop, key]
  rfl

theorem regular_ignore {S : Sympy} {U : Name → Nat → ℝ → ℝ} {q p' : Prob} (hq : Usual q) {a b : ℝ} {ρ : ℝ → Env} :
    Regular S U q.ignore p'.ignore a b ρ ↔ Regular S U q p' a b ρ := by
  have hform : ∀ t, (∀ qd, dualize S .diffyg q.ignore = .ok qd → ∀ d ∈ qd.costates, Defined (real U) (ρ t) d.eom) ↔
      ∀ qd, dualize S .diffyg q = .ok qd → ∀ d ∈ qd.costates, Defined (real U) (ρ t) d.eom := by
    intro t
    rw [(sim_dualize S .diffyg hq).1]
    cases hd : dualize S .diffyg q with
    | error e =>
      constructor
      · intro _ _ k
        cases k
      · intro _ _ k
        cases k
    | ok q2 =>
      constructor
      · rintro k _ ⟨⟩
        exact k q2.ignore rfl
      · rintro k _ ⟨⟩
        exact k q2 rfl
  constructor
  · intro h
    exact ⟨h.rates, smoothStart_ignore.1 h.start, smoothStop_ignore.1 h.stop, h.ham, h.defined, h.law, h.controls,
      fun om hom t ht => ⟨(h.form om hom t ht).1, (hform t).1 (h.form om hom t ht).2⟩⟩
  · intro h
    exact ⟨h.rates, smoothStart_ignore.2 h.start, smoothStop_ignore.2 h.stop, h.ham, h.defined, h.law, h.controls,
      fun om hom t ht => ⟨(h.form om hom t ht).1, (hform t).2 (h.form om hom t ht).2⟩⟩

theorem holds_ignore {U : Name → Nat → ℝ → ℝ} {σ : Env} {l : List Con} :
    Holds U σ (l.map Con.asEquality) ↔ Holds U σ l := by
  constructor
  · intro h c hc
    have := h c.asEquality (List.mem_map_of_mem hc)
    rwa [expr_asEquality] at this
  · intro h c hc
    obtain ⟨d, hd, rfl⟩ := List.mem_map.1 hc
    rw [expr_asEquality]
    exact h d hd

theorem solves_ignore {U : Name → Nat → ℝ → ℝ} {p' : Prob} {a b : ℝ} {ρ : ℝ → Env} :
    Solves U p'.ignore a b ρ ↔ Solves U p' a b ρ := by
  constructor
  · rintro ⟨k1, k2, k3, k4, k5⟩
    exact ⟨k1, k2, k3, holds_ignore.1 k4, holds_ignore.1 k5⟩
  · rintro ⟨k1, k2, k3, k4, k5⟩
    exact ⟨k1, k2, k3, holds_ignore.2 k4, holds_ignore.2 k5⟩

section compiled

variable {K : Type} [Field K] [LinearOrder K]

theorem bcEnd_ignore (I : Interp K) (p : Prob) (l : List Con) (y q pr pc k : List K) :
    bcEnd I p.ignore (l.map Con.asEquality) y q pr pc k = bcEnd I p l y q pr pc k := by
  rw [bcEnd, bcEnd, exprs_asEquality]
  rfl

theorem bcFunc_ignore (I : Interp K) (p : Prob) (y0 q0 yf qf pr pc k : List K) :
    bcFunc I p.ignore y0 q0 yf qf pr pc k = bcFunc I p y0 q0 yf qf pr pc k := by
  rw [bcFunc, bcFunc]
  change (bcEnd I p.ignore (p.initial.map Con.asEquality) y0 q0 pr pc k >>= fun a =>
    bcEnd I p.ignore (p.terminal.map Con.asEquality) yf qf pr pc k >>= fun b => _) = _
  rw [bcEnd_ignore, bcEnd_ignore]

omit [LinearOrder K] in
theorem bcJac_ignore (I : Interp K) (p : Prob) : bcJac I p.ignore = bcJac I p := by
  have e1 : p.ignore.initial.map Con.expr = p.initial.map Con.expr := exprs_asEquality _
  have e2 : p.ignore.terminal.map Con.expr = p.terminal.map Con.expr := exprs_asEquality _
  simp only [bcJac, e1, e2]
  rfl

theorem invTag_ignore (O : TrigOps K) (rule : List K → List K → K) (I : Interp K) (p p1 : Prob) (tag : MapTag) (s : Sol K) :
    invTag O rule I p.ignore p1.ignore tag s = invTag O rule I p p1 tag s := by
  cases tag <;> rfl

theorem invTags_ignore (O : TrigOps K) (rule : List K → List K → K) (I : Interp K) (p p1 : Prob) : ∀ (tags : List MapTag) (s : Sol K),
    invTags O rule I p.ignore p1.ignore tags s = invTags O rule I p p1 tags s
  | [], _ => rfl
  | tag :: tags, s => by
    rw [invTags, invTags, invTags_ignore O rule I p p1 tags s]
    simp only [invTag_ignore]

theorem invSteps_ignore (S : Sympy) (O : TrigOps K) (rule : List K → List K → K) (I : Interp K) : ∀ (steps : List Step) {p : Prob}
    (s : Sol K), Usual p → invSteps S O rule I steps p.ignore s = invSteps S O rule I steps p s
  | [], _, _, _ => rfl
  | st :: steps, p, s, h => by
    obtain ⟨h1, h2⟩ := sim_step S st h
    rw [invSteps, invSteps, h1]
    cases hs : st.run S p with
    | error e => rfl
    | ok p1 =>
      change (invSteps S O rule I steps p1.ignore s >>= fun s1 =>
        invTags O rule I p.ignore p1.ignore (newTags p.ignore p1.ignore) s1) =
        (invSteps S O rule I steps p1 s >>= fun s1 => invTags O rule I p p1 (newTags p p1) s1)
      rw [invSteps_ignore S O rule I steps s (h2 p1 hs)]
      simp only [invTags_ignore]
      rfl

/-! ### Properties -/

/-- Violation: the functions that the numerical solvers are given do not depend on one-sided inequalities either. -/
theorem C65_violated_compiled (I : Interp K) (p : Prob) :
    (∀ y pr k, derivFunc I p.ignore y pr k = derivFunc I p y pr k) ∧ quadFunc (K := K) p.ignore = quadFunc p ∧
    (∀ y0 q0 yf qf pr pc k, bcFunc I p.ignore y0 q0 yf qf pr pc k = bcFunc I p y0 q0 yf qf pr pc k) ∧
    (∀ y pr k, computeU I p.ignore y pr k = computeU I p y pr k) ∧ derivJac I p.ignore = derivJac I p ∧
    bcJac I p.ignore = bcJac I p :=
  ⟨fun _ _ _ => rfl, rfl, bcFunc_ignore I p, fun _ _ _ => rfl, rfl, bcJac_ignore I p⟩

/-- Violation: nor does the solution that is returned for a solution of the boundary value problem. -/
theorem C65_violated_returned (S : Sympy) (O : TrigOps K) (rule : List K → List K → K) (I : Interp K) (o : Opts) {p : Prob}
    (h : Usual p) (s : Sol K) : invIndirect S O rule I o p.ignore s = invIndirect S O rule I o p s := by
  obtain ⟨h1, h2⟩ := sim_preprocess h
  rw [invIndirect, invIndirect, h1]
  cases hp : preprocess p with
  | error e => rfl
  | ok q =>
    have hs : indirectSteps o q.ignore = indirectSteps o q := by
      rw [indirectSteps, indirectSteps, ineqSteps_ignore]
      rfl
    change (indirectSteps o q.ignore >>= fun steps => invSteps S O rule I steps q.ignore s) =
      (indirectSteps o q >>= fun steps => invSteps S O rule I steps q s)
    rw [hs]
    cases indirectSteps o q with
    | error e => rfl
    | ok steps => exact invSteps_ignore S O rule I steps s (h2 q hp)

end compiled

/-- Solutions of the generated boundary value problem, with one-sided constraints: they satisfy the first-order conditions
of the problem in which one-sided path constraints are missing and one-sided boundary constraints are equalities
(`userOcp` has the penalties of the two-sided constraints, and all other boundary constraints as equalities).

Missing from the full property: the one-sided constraints themselves (`C65_violated_end`), and what else is missing from
`C64_extremal_partial`. -/
theorem C64_onesided_partial {S : Sympy} (hL : LuSound S) {o : Opts} {p p' : Prob} (hp : StatedOneSided p)
    (hm : o.momentumShift = true) (hd : o.method ≠ .other) (hS : o.controlMethod = .algebraic → SolveSound S)
    (h : indirect S o p = .ok p') :
    ∃ q B, primal S p = .ok q ∧ Barriers B ∧
      ∀ U Q, Completes U p Q → ∀ a b ρ, a ≤ b → Solves U p' a b ρ → Regular S U q p' a b ρ →
        ∀ c, c = (if o.normalizeTime then ρ a ("_delta_" ++ p.ind) else 1) → 0 < c →
          Extremal (userOcp U Q B p) (ρ a p.ind) (ρ a p.ind + c * (b - a)) (fun s => ρ (a + (s - ρ a p.ind) / c))
            (fun s n => ρ (a + (s - ρ a p.ind) / c) ("_lam_" ++ n)) (fun i => ρ a ("_nu_0_" ++ toString i))
            (fun i => ρ a ("_nu_f_" ++ toString i)) := by
  obtain ⟨q', B, hq', hB, H⟩ := C64_extremal_partial hL hp.rest hm hd hS (indirect_ignore S o hp.usual h)
  obtain ⟨k1, k2⟩ := primal_ignore S hp.usual
  rw [k1] at hq'
  cases hq : primal S p with
  | error e => rw [hq] at hq'; cases hq'
  | ok q =>
    rw [hq] at hq'
    cases hq'
    refine ⟨q, B, rfl, hB, ?_⟩
    intro U Q hQ a b ρ hab hs hr c hc hpos
    have := H U Q ((completes_ignore hp.usual).2 hQ) a b ρ hab (solves_ignore.2 hs) ((regular_ignore (k2 q hq)).2 hr) c hc hpos
    rw [userOcp_ignore hp.usual] at this
    exact this

/-- The same in both directions: a curve that carries a candidate solves the boundary value problem exactly if the
candidate is an extremal of the problem in which one-sided path constraints are missing and one-sided boundary constraints
are equalities. -/
theorem C71_onesided_partial {S : Sympy} (hL : LuSound S) {o : Opts} {p p' : Prob} (hp : StatedOneSided p)
    (hm : o.momentumShift = true) (hd : o.method ≠ .other) (hS : o.controlMethod = .algebraic → SolveSound S)
    (h : indirect S o p = .ok p') :
    ∃ q B, primal S p = .ok q ∧ Barriers B ∧
      ∀ U Q, Completes U p Q → ∀ A E x lam ν₀ ν₁,
        (∀ s ∈ (userOcp U Q B p).controls, ∀ t ∈ Set.Icc A E, DifferentiableAt ℝ (fun τ => x τ s) t) →
        (∀ s, ¬ Reserved s → s ∉ (userOcp U Q B p).moving → s ≠ p.ind → ∀ t ∈ Set.Icc A E, x t s = x A s) →
        ∀ a b c, a < b → 0 < c → (o.normalizeTime = false → c = 1) → E = A + c * (b - a) →
          ∀ ρ, Carries (userOcp U Q B p) o.normalizeTime A c a x lam ν₀ ν₁ ρ → Regular S U q p' a b ρ →
            (o.controlMethod = .algebraic → ∀ t ∈ Set.Icc a b,
              SolveFinds S U (q.controls.map fun u => (hexpr q).diff u) q.controls (ρ t)) →
            (o.controlMethod = .differential → ∀ t ∈ Set.Icc a b, Nondegenerate U (hexpr q) q.controls (ρ t)) →
            (o.method = .diffyg → o.controlMethod = .differential →
              ∀ u ∈ (userOcp U Q B p).controls, ρ a ("_lam_" ++ u) = 0) →
            ((Extremal (userOcp U Q B p) A E x lam ν₀ ν₁ → Solves U p' a b ρ) ∧
              (Solves U p' a b ρ → Extremal (userOcp U Q B p) A E (fun s => ρ (a + (s - A) / c))
                (fun s n => ρ (a + (s - A) / c) ("_lam_" ++ n)) (fun i => ρ a ("_nu_0_" ++ toString i))
                (fun i => ρ a ("_nu_f_" ++ toString i)))) := by
  obtain ⟨q', B, hq', hB, H⟩ := C71_exact_partial hL hp.rest hm hd hS (indirect_ignore S o hp.usual h)
  obtain ⟨k1, k2⟩ := primal_ignore S hp.usual
  rw [k1] at hq'
  cases hq : primal S p with
  | error e => rw [hq] at hq'; cases hq'
  | ok q =>
    rw [hq] at hq'
    cases hq'
    refine ⟨q, B, rfl, hB, ?_⟩
    intro U Q hQ A E x lam ν₀ ν₁ hdu hconst a b c hab hc hnorm hE ρ hρ hr hsol hdet hzero
    have key := H U Q ((completes_ignore hp.usual).2 hQ) A E x lam ν₀ ν₁
    rw [userOcp_ignore hp.usual] at key
    obtain ⟨g1, g2⟩ := key hdu hconst a b c hab hc hnorm hE ρ hρ ((regular_ignore (k2 q hq)).2 hr) hsol hdet hzero
    exact ⟨fun he => solves_ignore.1 (g1 he), fun hs => g2 (solves_ignore.2 hs)⟩

/-- The reported cost with one-sided constraints: the stated cost and the penalties of the two-sided constraints. -/
theorem C72_onesided_partial {S : Sympy} {p q : Prob} (hp : StatedOneSided p) (hq : primal S p = .ok q) :
    ∃ B : ℝ → ℝ → ℝ → ℝ → ℝ, Barriers B ∧
      ∀ U Q, Completes U p Q → ∀ rule, Rule rule → ∀ t y qd u pr k σ v, Samples q σ t y u k →
        computeCost rule (real U) q t y qd u pr k = .ok v →
        v = stated rule U p t (fun i => Q (σ i)) + penalised rule B U p t (fun i => Q (σ i)) := by
  have hq' : primal S p.ignore = .ok q.ignore := by
    rw [(primal_ignore S hp.usual).1, hq]
    rfl
  obtain ⟨B, hB, H⟩ := C72_cost_partial hp.rest hq'
  refine ⟨B, hB, ?_⟩
  intro U Q hQ rule hr t y qd u pr k σ v hs hv
  have := H U Q ((completes_ignore hp.usual).2 hQ) rule hr t y qd u pr k σ v ⟨hs.states, hs.controls, hs.constants⟩ hv
  rw [this]
  refine congrArg₂ _ rfl ?_
  have e1 : p.ignore.initial = p.initial.map Con.asEquality := rfl
  have e2 : p.ignore.terminal = p.terminal.map Con.asEquality := rfl
  have e3 : p.ignore.path = p.path.filter Con.twoSided := rfl
  rw [penalised, penalised, e1, e2, e3]
  simp only [penalties_ignore]

/-- Violation, in general: at the end of every solution of the generated boundary value problem, a terminal constraint
with one bound holds as the equation `expr = 0`.  So whenever the lower bound is positive there, or the upper bound
negative, every solution that beluga can find violates the constraint that the user stated. -/
theorem C65_violated_end {S : Sympy} (hL : LuSound S) {o : Opts} {p p' : Prob} (hp : StatedOneSided p)
    (hm : o.momentumShift = true) (hd : o.method ≠ .other) (hS : o.controlMethod = .algebraic → SolveSound S)
    (h : indirect S o p = .ok p') :
    ∃ q, primal S p = .ok q ∧ ∀ U Q, Completes U p Q → ∀ a b ρ, a ≤ b → Solves U p' a b ρ → Regular S U q p' a b ρ →
      (o.normalizeTime = true → 0 < ρ a ("_delta_" ++ p.ind)) →
      (∀ c ∈ p.terminal, c.twoSided = false → eval (real U) (Q (ρ b)) c.expr = 0 ∧
        ((∃ lo, c.lower = some lo ∧ 0 < eval (real U) (Q (ρ b)) lo) ∨
          (∃ hi, c.upper = some hi ∧ eval (real U) (Q (ρ b)) hi < 0) → ¬ Obeys U (Q (ρ b)) c)) ∧
      ∀ c ∈ p.initial, c.twoSided = false → eval (real U) (Q (ρ a)) c.expr = 0 ∧
        ((∃ lo, c.lower = some lo ∧ 0 < eval (real U) (Q (ρ a)) lo) ∨
          (∃ hi, c.upper = some hi ∧ eval (real U) (Q (ρ a)) hi < 0) → ¬ Obeys U (Q (ρ a)) c) := by
  obtain ⟨q, B, hq, hB, H⟩ := C64_onesided_partial hL hp hm hd hS h
  refine ⟨q, hq, ?_⟩
  intro U Q hQ a b ρ hab hs hr hpos
  have hc0 : 0 < (if o.normalizeTime then ρ a ("_delta_" ++ p.ind) else 1) := by
    split
    · next hn => exact hpos hn
    · exact one_pos
  have key := H U Q hQ a b ρ hab hs hr _ rfl hc0
  set c := (if o.normalizeTime then ρ a ("_delta_" ++ p.ind) else 1) with hc
  have ea : a + (ρ a p.ind - ρ a p.ind) / c = a := by simp
  have eb : a + (ρ a p.ind + c * (b - a) - ρ a p.ind) / c = b := by
    have : c ≠ 0 := hc0.ne'
    field_simp
    ring
  have obey : ∀ (σ : Env) (c : Con), eval (real U) σ c.expr = 0 →
      ((∃ lo, c.lower = some lo ∧ 0 < eval (real U) σ lo) ∨ (∃ hi, c.upper = some hi ∧ eval (real U) σ hi < 0)) → ¬ Obeys U σ c := by
    rintro σ c h0 (⟨lo, hl, hlt⟩ | ⟨hi, hl, hlt⟩) ⟨o1, o2⟩
    · have := o1 lo hl
      rw [h0] at this
      exact absurd this (not_le.2 hlt)
    · have := o2 hi hl
      rw [h0] at this
      exact absurd this (not_le.2 hlt)
  constructor
  · intro d hdm ht
    have h0 : eval (real U) (Q (ρ b)) d.expr = 0 := by
      have := key.terminal _ (List.mem_map_of_mem (f := fun (c : Con) σ => eval (real U) (Q σ) c.expr)
        (List.mem_filter.2 ⟨hdm, by simp [ht]⟩))
      simp only [eb] at this
      exact this
    exact ⟨h0, obey _ _ h0⟩
  · intro d hdm ht
    have h0 : eval (real U) (Q (ρ a)) d.expr = 0 := by
      have := key.initial _ (List.mem_map_of_mem (f := fun (c : Con) σ => eval (real U) (Q σ) c.expr)
        (List.mem_filter.2 ⟨hdm, by simp [ht]⟩))
      simp only [ea] at this
      exact this
    exact ⟨h0, obey _ _ h0⟩

/-- The solution that `inv_map_sol` returns, with one-sided constraints: an extremal of the problem in which one-sided path
constraints are missing and one-sided boundary constraints are equalities, with its cost.

Missing from the full property: what is missing from `C73_returned_partial`, except one-sided constraints. -/
theorem C73_onesided_partial {S : Sympy} (hL : LuSound S) {o : Opts} {p p' : Prob} (hp : StatedOneSided p)
    (hm : o.momentumShift = true) (hd : o.method ≠ .other) (hS : o.controlMethod = .algebraic → SolveSound S)
    (h : indirect S o p = .ok p') :
    ∃ q B, primal S p = .ok q ∧ Barriers B ∧
      ∀ U Q, Completes U p Q → ∀ (O : TrigOps ℝ) rule, O.sin = Real.sin →
      ∀ a b y pr pc k ρ, a ≤ b → NumSol U p' a b y pr pc k → Reads U p' a b y pr pc k ρ → Regular S U q p' a b ρ →
        (∀ x ∈ pr, 0 < x) →
      ∀ s s' : Sol ℝ, s.t ≠ [] → (∀ τ ∈ s.t, τ ∈ Set.Icc a b) → s.y = .rows p'.states.length (s.t.map y) → s.dyn = pr →
        s.const = k → invIndirect S O rule (real U) o p s = .ok s' →
      ∃ t₀ c x lam ν₀ ν₁, 0 < c ∧ Extremal (userOcp U Q B p) t₀ (t₀ + c * (b - a)) x lam ν₀ ν₁ ∧
        s'.t = s.t.map (fun τ => t₀ + c * (τ - a)) ∧ Returned Q p x lam s' ∧ s'.const = k ∧
        s'.dualT = s'.t.map (fun t => -((userOcp U Q B p).ham (lam t) (x t))) ∧
        (Rule rule → Shift rule → s'.cost = some (stated rule U p s'.t (fun i => Q (x (s'.t.getD i 0))) +
          penalised rule B U p s'.t fun i => Q (x (s'.t.getD i 0)))) ∧
        (o.controlMethod = .algebraic → Least S U q (userOcp U Q B p) t₀ (t₀ + c * (b - a)) x lam) ∧ Drawn ρ a t₀ c x lam ν₀ ν₁ := by
  obtain ⟨q', B, hq', hB, H⟩ := C73_returned_partial hL hp.rest hm hd hS (indirect_ignore S o hp.usual h)
  obtain ⟨k1, k2⟩ := primal_ignore S hp.usual
  rw [k1] at hq'
  cases hq : primal S p with
  | error e => rw [hq] at hq'; cases hq'
  | ok q =>
    rw [hq] at hq'
    cases hq'
    refine ⟨q, B, rfl, hB, ?_⟩
    intro U Q hQ O rule hO a b y pr pc k ρ hab hn hread hr hpr s s' hne hgrid hy hdyn hconst hinv
    have hn' : NumSol U p'.ignore a b y pr pc k := by
      refine ⟨hn.rates, ?_⟩
      obtain ⟨r, h1, h2⟩ := hn.boundary
      exact ⟨r, by rw [bcFunc_ignore]; exact h1, h2⟩
    have key := H U Q ((completes_ignore hp.usual).2 hQ) O rule hO a b y pr pc k ρ hab hn'
      ⟨hread.states, hread.controls, hread.parameters, hread.multipliers, hread.constants, hread.others⟩
      ((regular_ignore (k2 q hq)).2 hr) hpr s s' hne hgrid hy hdyn hconst
      (by rw [C65_violated_returned S O rule (real U) o hp.usual]; exact hinv)
    rw [userOcp_ignore hp.usual] at key
    have e1 : p.ignore.initial = p.initial.map Con.asEquality := rfl
    have e2 : p.ignore.terminal = p.terminal.map Con.asEquality := rfl
    have e3 : p.ignore.path = p.path.filter Con.twoSided := rfl
    have hpen : penalised rule B U p.ignore = penalised rule B U p := by
      rw [penalised, penalised, e1, e2, e3]
      simp only [penalties_ignore]
    rw [hpen] at key
    obtain ⟨t₀, c, x, lam, ν₀, ν₁, g1, g2, g3, g4, g5, g6, g7, g8, g9⟩ := key
    exact ⟨t₀, c, x, lam, ν₀, ν₁, g1, g2, g3, ⟨g4.states, g4.costates, g4.controls, g4.constants, g4.parameters⟩, g5, g6, g7, g8, g9⟩

/-! ### A concrete case

The problem `exP` of `Verif.Extremal.Props` with "`x` is at least 2 at the end" and "`u` is at most 1/2": the solution that
beluga finds ends at `x = 1` and has `u = 1`. -/

def exOne : Prob := { exP with
  path := [{ expr := sym "u", upper := some (1 / 2) }]
  terminal := [{ expr := sym "x" - 1, lower := some 1 },
    { expr := sym "x", lower := some (num (-1)), upper := some 3, activator := some (sym "eps"), method := .utm }] }

theorem exOne_ignore : exOne.ignore = exP := by decide +kernel

theorem exOne_stated : StatedOneSided exOne := ⟨by simp [Usual, exOne], by rw [exOne_ignore]; exact exP_stated⟩

example (U : Name → Nat → ℝ → ℝ) : ∃ p', indirect exS exO exOne = .ok p' ∧ Solves U p' 0 1 exCurve ∧
    (∀ c ∈ exOne.terminal, c.twoSided = false → ¬ Obeys U (exQ (exCurve 1)) c) ∧
    ∀ t, ∀ c ∈ exOne.path, ¬ Obeys U (exQ (exCurve t)) c := by
  obtain ⟨p', hp'⟩ : ∃ p', indirect exS exO exOne = .ok p' := by
    have h := C65_violated exS exO exOne_stated.usual
    rw [exOne_ignore, exP'_ok] at h
    cases hi : indirect exS exO exOne with
    | ok p => exact ⟨p, rfl⟩
    | error e => rw [hi] at h; cases h
  have hig : p'.ignore = exP' := by
    have h := indirect_ignore exS exO exOne_stated.usual hp'
    rw [exOne_ignore, exP'_ok] at h
    exact (Except.ok.inj h).symm
  obtain ⟨q, hq, H⟩ := C65_violated_end (luSound_cramer exS rfl) exOne_stated (o := exO) rfl (by decide) (fun _ => exS_sound) hp'
  obtain ⟨k1, k2⟩ := primal_ignore exS exOne_stated.usual
  have hqi : q.ignore = exq := by
    rw [exOne_ignore, exq_ok, hq] at k1
    exact (Except.ok.inj k1).symm
  have hs : Solves U p' 0 1 exCurve := solves_ignore.1 (by rw [hig]; exact exSolves U)
  have hr : Regular exS U q p' 0 1 exCurve := (regular_ignore (k2 q hq)).1 (by rw [hig, hqi]; exact exRegular U)
  have hQ : Completes U exOne exQ := (completes_ignore exOne_stated.usual).1 (by rw [exOne_ignore]; exact exQ_completes U)
  refine ⟨p', hp', hs, ?_, ?_⟩
  · intro c hc ht
    refine ((H U exQ hQ 0 1 exCurve (by norm_num) hs hr (fun _ => ?_)).1 c hc ht).2 (Or.inl ⟨1, ?_, ?_⟩)
    · have : exCurve 0 "_delta_t" = 1 := by simp [exCurve]
      exact this ▸ one_pos
    · simp only [exOne, List.mem_cons, List.not_mem_nil, or_false] at hc
      rcases hc with rfl | rfl
      · rfl
      · cases ht
    · simp
  · intro t c hc ho
    simp only [exOne, List.mem_singleton] at hc
    subst hc
    have := ho.2 _ rfl
    simp [eval, Opt.exQ, exCurve] at this
    norm_num at this

end Beluga.E2E
