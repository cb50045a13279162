import Verif.EndToEnd.Convex

/-!
# For convex problems the returned solution is nearly optimal under the stated constraints

beluga replaces a two-sided constraint by a penalty.  What does the solution of the replaced problem say about the stated problem, with
its constraints and without penalties?  The penalty is non-negative where the constraint holds, proportional to the activator, and
bounded away from the bounds; so for a convex problem the returned trajectory costs at most a multiple of the activator more than
any trajectory that keeps a distance from the bounds.
-/

namespace Beluga.E2E

open Beluga.Sym Beluga.Sym.Expr Beluga.Num Beluga.Map Beluga.Opt Beluga.Rep
open Beluga.Shoot (lastT)

/-! ### Specification -/

/-- The cost as the user states it, without penalties. -/
noncomputable def statedCost (U : Name → Nat → ℝ → ℝ) (Q : Env → Env) (p : Prob) (a b : ℝ) (x : ℝ → Env) : ℝ :=
  eval (real U) (Q (x a)) p.costInitial + (∫ t in a..b, eval (real U) (Q (x t)) p.costPath) + eval (real U) (Q (x b)) p.costTerminal

/-- A constraint holds at a point: its expression lies strictly between its bounds. -/
def HoldsAt (U : Name → Nat → ℝ → ℝ) (Q : Env → Env) (σ : Env) (c : Con) : Prop :=
  ∀ lo ∈ c.lower, ∀ hi ∈ c.upper, eval (real U) (Q σ) lo < eval (real U) (Q σ) c.expr ∧
    eval (real U) (Q σ) c.expr < eval (real U) (Q σ) hi

/-- The trajectory satisfies all two-sided constraints. -/
structure Feasible (U : Name → Nat → ℝ → ℝ) (Q : Env → Env) (p : Prob) (a b : ℝ) (x : ℝ → Env) : Prop where
  path : ∀ t ∈ Set.Ioo a b, ∀ c ∈ p.path, c.twoSided = true → HoldsAt U Q (x t) c
  initial : ∀ c ∈ p.initial, c.twoSided = true → HoldsAt U Q (x a) c
  terminal : ∀ c ∈ p.terminal, c.twoSided = true → HoldsAt U Q (x b) c

/-- At a point the activator of a constraint is at most `κ`, and its expression keeps the fraction `μ` of the interval away from either
bound. -/
def RoomAt (U : Name → Nat → ℝ → ℝ) (Q : Env → Env) (κ μ : ℝ) (σ : Env) (c : Con) : Prop :=
  ∀ act ∈ c.activator, ∀ lo ∈ c.lower, ∀ hi ∈ c.upper, eval (real U) (Q σ) act ≤ κ ∧
    eval (real U) (Q σ) lo + μ * (eval (real U) (Q σ) hi - eval (real U) (Q σ) lo) ≤ eval (real U) (Q σ) c.expr ∧
    eval (real U) (Q σ) c.expr ≤ eval (real U) (Q σ) hi - μ * (eval (real U) (Q σ) hi - eval (real U) (Q σ) lo)

/-- The trajectory keeps a distance from all bounds, and its cost is defined. -/
structure Roomy (U : Name → Nat → ℝ → ℝ) (Q : Env → Env) (p : Prob) (κ μ a b : ℝ) (z : ℝ → Env) : Prop where
  activator : 0 ≤ κ
  margin : 0 < μ
  path : ∀ t ∈ Set.Ioo a b, ∀ c ∈ p.path, c.twoSided = true → RoomAt U Q κ μ (z t) c
  initial : ∀ c ∈ p.initial, c.twoSided = true → RoomAt U Q κ μ (z a) c
  terminal : ∀ c ∈ p.terminal, c.twoSided = true → RoomAt U Q κ μ (z b) c
  cost : MeasureTheory.IntegrableOn (fun t => eval (real U) (Q (z t)) p.costPath) (Set.Icc a b)

/-- How much there is to penalise: the constraints at the ends, and those on the path times the duration. -/
noncomputable def burden (p : Prob) (a b : ℝ) : ℝ :=
  ((p.initial.filter Con.twoSided).length : ℝ) + ((p.path.filter Con.twoSided).length : ℝ) * (b - a) +
    ((p.terminal.filter Con.twoSided).length : ℝ)

/-- For a convex problem, the trajectory `x` satisfies the constraints, and compared with any trajectory `z` that keeps the fraction `μ`
away from the bounds its stated cost is at most a multiple of the activator higher, apart from the errors as in `Nearest`. -/
def NearlyBest (U : Name → Nat → ℝ → ℝ) (Q : Env → Env) (B : ℝ → ℝ → ℝ → ℝ → ℝ) (p : Prob) (ε η δ a b : ℝ) (x : ℝ → Env)
    (lam : ℝ → Name → ℝ) (ν₀ ν₁ : Nat → ℝ) : Prop :=
  ∀ D z κ μ, ConvexStated U Q p D a b x z → Admissible (userOcp U Q B p) a b x z → Roomy U Q p κ μ a b z →
    MeasureTheory.IntegrableOn (fun t => eval (real U) (Q (x t)) p.costPath) (Set.Icc a b) →
    ∀ E F, (∀ t ∈ Set.Ioo a b, δ * ((p.states.map fun d => |z t d.name - x t d.name| + |lam t d.name|).sum) +
        η * (p.controls.map fun u => |z t u - x t u|).sum ≤ E) →
      ε * ((p.states.map fun d => |z a d.name - x a d.name| + |z b d.name - x b d.name|).sum +
        ((p.initial.filter fun c => !c.twoSided).zipIdx.map fun c => |ν₀ c.2|).sum +
        ((p.terminal.filter fun c => !c.twoSided).zipIdx.map fun c => |ν₁ c.2|).sum) ≤ F →
      Feasible U Q p a b x ∧
      statedCost U Q p a b x ≤ statedCost U Q p a b z + κ / (2 * μ) * burden p a b + E * (b - a) + F

/-! ### Lemmas -/

theorem twoSided_bounds {c : Con} (h : c.twoSided = true) : ∃ lo hi, c.lower = some lo ∧ c.upper = some hi := by
  cases hl : c.lower <;> cases hu : c.upper <;> simp [Con.twoSided, hl, hu] at h ⊢

theorem Between.holds {U : Name → Nat → ℝ → ℝ} {Q : Env → Env} {D : Set Env} {c : Con} (h : Between U Q D c) {σ : Env} (hσ : σ ∈ D) :
    HoldsAt U Q σ c := by
  obtain ⟨a, lo, hi, -, -, hb⟩ := h.bounds
  obtain ⟨-, h2, h3, h4, h5⟩ := hb σ hσ
  intro el hl eh hu
  rw [h2 el hl, h3 eh hu]
  exact ⟨h4, h5⟩

theorem Between.penalty_nonneg {U : Name → Nat → ℝ → ℝ} {Q : Env → Env} {D : Set Env} {c : Con} {B : ℝ → ℝ → ℝ → ℝ → ℝ} (hB : Barriers B)
    (h : Between U Q D c) {σ : Env} (hσ : σ ∈ D) : 0 ≤ penalty B U (Q σ) c := by
  obtain ⟨a, lo, hi, ha, hlt, hb⟩ := h.bounds
  obtain ⟨h1, h2, h3, h4, h5⟩ := hb σ hσ
  rw [penalty, h.method]
  cases hact : c.activator with
  | none => exact le_refl _
  | some ea =>
    cases hlo : c.lower with
    | none => exact le_refl _
    | some el =>
      cases hhi : c.upper with
      | none => exact le_refl _
      | some eh =>
        simp only
        rw [h1 ea hact, h2 el hlo, h3 eh hhi]
        exact (hB.barrier a lo hi ha hlt).nonneg _ h4 h5

theorem Between.penalty_le {U : Name → Nat → ℝ → ℝ} {Q : Env → Env} {D : Set Env} {c : Con} {B : ℝ → ℝ → ℝ → ℝ → ℝ} (hB : Barriers B)
    (h : Between U Q D c) {σ : Env} (hσ : σ ∈ D) {κ μ : ℝ} (hκ : 0 ≤ κ) (hμ : 0 < μ) (hr : RoomAt U Q κ μ σ c) :
    penalty B U (Q σ) c ≤ κ / (2 * μ) := by
  obtain ⟨a, lo, hi, ha, hlt, hb⟩ := h.bounds
  obtain ⟨h1, h2, h3, h4, h5⟩ := hb σ hσ
  have hpos : 0 ≤ κ / (2 * μ) := by positivity
  rw [penalty, h.method]
  cases hact : c.activator with
  | none => exact hpos
  | some ea =>
    cases hlo : c.lower with
    | none => exact hpos
    | some el =>
      cases hhi : c.upper with
      | none => exact hpos
      | some eh =>
        obtain ⟨k1, k2, k3⟩ := hr ea hact el hlo eh hhi
        simp only
        rw [h1 ea hact] at k1 ⊢
        rw [h2 el hlo, h3 eh hhi] at k2 k3 ⊢
        refine (hB.bound a lo hi μ _ ha.le hlt hμ k2 k3).trans ?_
        exact div_le_div_of_nonneg_right k1 (by positivity)

theorem ConvexPart.penalties_nonneg {U : Name → Nat → ℝ → ℝ} {Q : Env → Env} {D : Set Env} {cost : Expr} {cons : List Con}
    {B : ℝ → ℝ → ℝ → ℝ → ℝ} (hB : Barriers B) (h : ConvexPart U Q D cost cons) {σ : Env} (hσ : σ ∈ D) :
    0 ≤ penalties B U (Q σ) cons := by
  refine List.sum_nonneg fun x hx => ?_
  obtain ⟨c, hc, rfl⟩ := List.mem_map.1 hx
  obtain ⟨h1, h2⟩ := List.mem_filter.1 hc
  exact (h.inequalities c h1 h2).penalty_nonneg hB hσ

theorem ConvexPart.penalties_le {U : Name → Nat → ℝ → ℝ} {Q : Env → Env} {D : Set Env} {cost : Expr} {cons : List Con}
    {B : ℝ → ℝ → ℝ → ℝ → ℝ} (hB : Barriers B) (h : ConvexPart U Q D cost cons) {σ : Env} (hσ : σ ∈ D) {κ μ : ℝ} (hκ : 0 ≤ κ)
    (hμ : 0 < μ) (hr : ∀ c ∈ cons, c.twoSided = true → RoomAt U Q κ μ σ c) :
    penalties B U (Q σ) cons ≤ κ / (2 * μ) * (cons.filter Con.twoSided).length := by
  have : ∀ x ∈ (cons.filter Con.twoSided).map (penalty B U (Q σ)), x ≤ κ / (2 * μ) := by
    intro x hx
    obtain ⟨c, hc, rfl⟩ := List.mem_map.1 hx
    obtain ⟨h1, h2⟩ := List.mem_filter.1 hc
    exact (h.inequalities c h1 h2).penalty_le hB hσ hκ hμ (hr c h1 h2)
  have := List.sum_le_card_nsmul _ _ this
  rw [List.length_map, nsmul_eq_mul] at this
  rw [penalties, mul_comm]
  exact this

/-- From the cost with penalties to the stated cost. -/
theorem ConvexStated.stated {U : Name → Nat → ℝ → ℝ} {Q : Env → Env} {p : Prob} {D : ℝ → Set Env} {B : ℝ → ℝ → ℝ → ℝ → ℝ} {a b : ℝ}
    {x z : ℝ → Env} (hB : Barriers B) (hD : ConvexStated U Q p D a b x z) {κ μ err : ℝ} (hr : Roomy U Q p κ μ a b z)
    (hx : MeasureTheory.IntegrableOn (fun t => (userOcp U Q B p).path (x t)) (Set.Icc a b))
    (hx' : MeasureTheory.IntegrableOn (fun t => eval (real U) (Q (x t)) p.costPath) (Set.Icc a b))
    (hz : MeasureTheory.IntegrableOn (fun t => (userOcp U Q B p).path (z t)) (Set.Icc a b))
    (h : (userOcp U Q B p).cost a b x ≤ (userOcp U Q B p).cost a b z + err) :
    Feasible U Q p a b x ∧ statedCost U Q p a b x ≤ statedCost U Q p a b z + κ / (2 * μ) * burden p a b + err := by
  have hab := hD.lt.le
  have ha : a ∈ Set.Icc a b := ⟨le_refl _, hab⟩
  have hb : b ∈ Set.Icc a b := ⟨hab, le_refl _⟩
  have hI : ∀ t ∈ Set.Ioo a b, t ∈ Set.Icc a b := fun t ht => ⟨ht.1.le, ht.2.le⟩
  refine ⟨⟨?_, ?_, ?_⟩, ?_⟩
  · exact fun t ht c hc h2 => ((hD.path t ht).inequalities c hc h2).holds (hD.inside t (hI t ht)).1
  · exact fun c hc h2 => (hD.initial.inequalities c hc h2).holds (hD.inside a ha).1
  · exact fun c hc h2 => (hD.terminal.inequalities c hc h2).holds (hD.inside b hb).1
  have toI : ∀ {f : ℝ → ℝ}, MeasureTheory.IntegrableOn f (Set.Icc a b) → IntervalIntegrable f MeasureTheory.volume a b := by
    intro f hf
    rw [intervalIntegrable_iff_integrableOn_Icc_of_le hab]
    exact hf
  have e1 : (∫ t in a..b, eval (real U) (Q (x t)) p.costPath) ≤ ∫ t in a..b, (userOcp U Q B p).path (x t) := by
    refine intervalIntegral.integral_mono_on_of_le_Ioo hab (toI hx') (toI hx) fun t ht => ?_
    have := (hD.path t ht).penalties_nonneg hB (hD.inside t (hI t ht)).1
    simp only [userOcp]
    linarith
  have e2 : (∫ t in a..b, (userOcp U Q B p).path (z t)) ≤
      (∫ t in a..b, eval (real U) (Q (z t)) p.costPath) + κ / (2 * μ) * (p.path.filter Con.twoSided).length * (b - a) := by
    have hk : IntervalIntegrable (fun _ : ℝ => κ / (2 * μ) * ((p.path.filter Con.twoSided).length : ℝ)) MeasureTheory.volume a b :=
      intervalIntegrable_const
    have := intervalIntegral.integral_mono_on_of_le_Ioo hab (toI hz) ((toI hr.cost).add hk) fun t ht => (by
      have := (hD.path t ht).penalties_le hB (hD.inside t (hI t ht)).2 hr.activator hr.margin (hr.path t ht)
      simp only [userOcp]
      linarith : (userOcp U Q B p).path (z t) ≤ eval (real U) (Q (z t)) p.costPath + κ / (2 * μ) * ((p.path.filter Con.twoSided).length : ℝ))
    rw [intervalIntegral.integral_add (toI hr.cost) hk, intervalIntegral.integral_const] at this
    simp only [smul_eq_mul] at this
    linarith
  have i1 := hD.initial.penalties_nonneg hB (hD.inside a ha).1
  have i2 := hD.initial.penalties_le hB (hD.inside a ha).2 hr.activator hr.margin hr.initial
  have f1 := hD.terminal.penalties_nonneg hB (hD.inside b hb).1
  have f2 := hD.terminal.penalties_le hB (hD.inside b hb).2 hr.activator hr.margin hr.terminal
  rw [Ocp.cost, Ocp.cost] at h
  simp only [statedCost, burden]
  have c1 : ∀ σ, (userOcp U Q B p).costInitial σ = eval (real U) (Q σ) p.costInitial + penalties B U (Q σ) p.initial := fun _ => rfl
  have c2 : ∀ σ, (userOcp U Q B p).costTerminal σ = eval (real U) (Q σ) p.costTerminal + penalties B U (Q σ) p.terminal := fun _ => rfl
  rw [c1, c1, c2, c2] at h
  linarith

theorem Nearest.nearly {U : Name → Nat → ℝ → ℝ} {Q : Env → Env} {B : ℝ → ℝ → ℝ → ℝ → ℝ} {p : Prob} {ε η δ a b : ℝ} {x : ℝ → Env}
    {lam : ℝ → Name → ℝ} {ν₀ ν₁ : Nat → ℝ} (hB : Barriers B) (h : Nearest U Q B p ε η δ a b x lam ν₀ ν₁)
    (hx : ContinuousOn (fun t => (userOcp U Q B p).path (x t)) (Set.Icc a b)) : NearlyBest U Q B p ε η δ a b x lam ν₀ ν₁ := by
  intro D z κ μ hD hz hr hx' E F hE hF
  have hx := hx.integrableOn_Icc (μ := MeasureTheory.volume)
  have := h D z hD hz E F hE hF
  have := hD.stated hB hr hx hx' hz.cost (err := E * (b - a) + F) (by linarith)
  exact ⟨this.1, by linarith [this.2]⟩

/-! ### The property -/

/-- The tables that the user gets for an exact solution of the compiled boundary value problem are samples of a trajectory that
satisfies the stated constraints and is nearly optimal under them, if the stated problem is convex: its stated cost, without penalties,
exceeds that of a trajectory over the same time that keeps the fraction `μ` of each interval away from the bounds by at most
`κ / (2 μ)` for each constraint (times the duration, for those on the path), where `κ` bounds the activators.  As the activators are
driven to zero, the cost becomes that of the best trajectory inside the bounds.

Missing from the full property: what is missing from `C82_minimum_partial`; that the trajectory stays within the bounds is part of
the assumption that the problem is convex along it. -/
theorem C85_nearly_optimal_partial {S : Sympy} (hL : LuSound S) {o : Opts} {p p' : Prob} (hp : Stated p)
    (hm : o.momentumShift = true) (hd : o.method ≠ .other) (hS : o.controlMethod = .algebraic → SolveSound S)
    (h : indirect S o p = .ok p') :
    ∃ q B, primal S p = .ok q ∧ Barriers B ∧
      ∀ U Q, Completes U p Q → ∀ (O : TrigOps ℝ) rule, O.sin = Real.sin →
      ∀ a b y pr pc k ρ, a ≤ b → NumSol U p' a b y pr pc k → Reads U p' a b y pr pc k ρ → Regular S U q p' a b ρ →
        (∀ x ∈ pr, 0 < x) →
      ∀ s s' : Sol ℝ, s.t ≠ [] → (∀ τ ∈ s.t, τ ∈ Set.Icc a b) → s.y = .rows p'.states.length (s.t.map y) → s.dyn = pr →
        s.const = k → invIndirect S O rule (real U) o p s = .ok s' →
      ∃ t₀ c x lam ν₀ ν₁, 0 < c ∧ s'.t = s.t.map (fun τ => t₀ + c * (τ - a)) ∧ Returned Q p x lam s' ∧
        Drawn ρ a t₀ c x lam ν₀ ν₁ ∧
        (MeasureTheory.IntegrableOn (fun t => eval (real U) (Q (x t)) p.costPath) (Set.Icc t₀ (t₀ + c * (b - a))) →
          ∀ D z κ μ, ConvexStated U Q p D t₀ (t₀ + c * (b - a)) x z → Admissible (userOcp U Q B p) t₀ (t₀ + c * (b - a)) x z →
            Roomy U Q p κ μ t₀ (t₀ + c * (b - a)) z →
            Feasible U Q p t₀ (t₀ + c * (b - a)) x ∧
            statedCost U Q p t₀ (t₀ + c * (b - a)) x ≤
              statedCost U Q p t₀ (t₀ + c * (b - a)) z + κ / (2 * μ) * burden p t₀ (t₀ + c * (b - a))) := by
  obtain ⟨q, B, hq, hB, key⟩ := C82_minimum_partial hL hp hm hd hS h
  refine ⟨q, B, hq, hB, ?_⟩
  intro U Q hQ O rule hO a b y pr pc k ρ hab hnum hread hreg hpr s s' hne hgrid hy hdyn hconst hinv
  obtain ⟨t₀, c, x, lam, ν₀, ν₁, g1, g2, g3, g4, g5⟩ := key U Q hQ O rule hO a b y pr pc k ρ hab hnum hread hreg hpr s s' hne hgrid hy
    hdyn hconst hinv
  have hx := (g4.continuous g1 (path_continuous hL hp hm hd h hq hB hQ hread hreg hnum.strays)).integrableOn_Icc
    (μ := MeasureTheory.volume)
  refine ⟨t₀, c, x, lam, ν₀, ν₁, g1, g2, g3, g4, fun hx' D z κ μ hD hz hr => ?_⟩
  have := hD.stated hB hr hx hx' hz.cost (err := 0) (by simpa using g5.2 D z hD hz)
  simpa using this

/-- Whatever `solve` returns for a stated problem that is convex (an indirect method, no autoscaling): each returned trajectory that is
flagged as converged consists of samples of a curve that is nearly optimal under the stated constraints, up to the activators, the
tolerance of the solver and the defect of a curve through its rows.

Missing from the full property: what is missing from `C82_solve_partial`. -/
theorem C85_solve_partial {c : Config} (hL : LuSound c.sympy) (hS : c.opts.controlMethod = .algebraic → SolveSound c.sympy)
    (hm : c.opts.momentumShift = true) (hR : c.solver.Ok) (hO : c.trig.sin = Real.sin) (hun : c.units = none)
    {w : Solve.World Prob Bvp (Sol ℝ)} {a : Solve.Args Prob Bvp (Sol ℝ)} {p : Prob} (hp : Stated p) (ha : a.ocp = some p)
    (hb : a.bvp = none) (hmeth : a.method.toLower ∈ ["indirect", "traditional", "brysonho", "diffyg"])
    (hd : c.opts.method = if a.method.toLower = "diffyg" then .diffyg else .traditional)
    (hfit : ∀ b s, Handed (world c w) a p b s → Fit c.solver b.prob s) {out : List (List (Sol ℝ))}
    (h : (Solve.solve (world c w) a).1 = .ok out) :
    ∃ b s q B calls, Handed (world c w) a p b s ∧ indirect c.sympy c.opts p = .ok b.prob ∧ primal c.sympy p = .ok q ∧
      Barriers B ∧ Warm s calls.flatten ∧
      List.Forall₂ (List.Forall₂ fun (x : Sol ℝ × Sol ℝ) s' =>
        solvePass c.solver c.functions b.prob none x.1 = .ok (some x.2) ∧
        invIndirect c.sympy c.trig c.rule (real c.functions) c.opts p x.2 = .ok s' ∧ s'.const = x.1.const ∧
        s'.converged = x.2.converged ∧
        (s'.converged = true → (∀ d ∈ x.2.dyn, 0 < d) → ∀ Q, Completes c.functions p Q →
          ∀ y, x.2.y = .rows b.prob.states.length (x.2.t.map y) → ∀ t₁ t₂, t₁ = x.1.t.getD 0 0 → t₂ = lastT x.1.t →
          ∀ δ M N V η, 0 ≤ δ → 0 ≤ N → η = (if c.opts.controlMethod = .algebraic then 0 else c.solver.tol + δ * N * (t₂ - t₁)) →
            Strays c.functions b.prob δ t₁ t₂ y x.2.dyn s'.const →
          ∀ ρ, Reads c.functions b.prob t₁ t₂ y x.2.dyn x.2.nondyn s'.const ρ → Regular c.sympy c.functions q b.prob t₁ t₂ ρ →
            Sized c.functions q M N V t₁ t₂ ρ →
          ∃ t₀ e z lam ν₀ ν₁, 0 < e ∧
            s'.t = x.2.t.map (fun τ => t₀ + e * (τ - t₁)) ∧ Returned Q p z lam s' ∧ Drawn ρ t₁ t₀ e z lam ν₀ ν₁ ∧
            NearlyBest c.functions Q B p c.solver.tol η (δ / e) t₀ (t₀ + e * (t₂ - t₁)) z lam ν₀ ν₁)) calls out := by
  obtain ⟨b, s, q, B, calls, h1, h2, h3, hB, h4, h5⟩ := C82_solve_partial hL hS hm hR hO hun hp ha hb hmeth hd hfit h
  refine ⟨b, s, q, B, calls, h1, h2, h3, hB, h4, h5.imp fun l l' hll => hll.imp fun x s' hx => ?_⟩
  obtain ⟨k1, k2, k3, k4, k5⟩ := hx
  refine ⟨k1, k2, k3, k4, ?_⟩
  intro hc hpos Q hQ y hy t₁ t₂ ht₁ ht₂ δ M N V η hδ hN hη hst ρ hread hreg hz
  obtain ⟨t₀, e, z, lam, ν₀, ν₁, m1, -, m3, m4, m5, m6⟩ := k5 hc hpos Q hQ y hy t₁ t₂ ht₁ ht₂ δ M N V η hδ hN hη hst ρ hread hreg hz
  exact ⟨t₀, e, z, lam, ν₀, ν₁, m1, m3, m4, m5, m6.nearly hB
    (m5.continuous m1 (path_continuous hL hp hm (known_method hd) h2 h3 hB hQ hread hreg hst))⟩

/-- The same with autoscaling, the default, for a dimensionally consistent problem, with the tolerance times the largest of the
sizes of the units of the boundary conditions.

Missing from the full property: what is missing from `C82_solve_autoscaled_partial`. -/
theorem C85_solve_autoscaled_partial {c : Config} (hL : LuSound c.sympy)
    (hS : c.opts.controlMethod = .algebraic → SolveSound c.sympy)
    (hm : c.opts.momentumShift = true) (hR : c.solver.Ok) (hO : c.trig.sin = Real.sin) {un : Units} (hun : c.units = some un)
    {w : Solve.World Prob Bvp (Sol ℝ)} {a : Solve.Args Prob Bvp (Sol ℝ)} {p : Prob} (hp : Stated p) (hH : p.hamiltonian = none)
    (ha : a.ocp = some p) (hb : a.bvp = none) (hmeth : a.method.toLower ∈ ["indirect", "traditional", "brysonho", "diffyg"])
    (hd : c.opts.method = if a.method.toLower = "diffyg" then .diffyg else .traditional)
    (hfit : ∀ b s, Handed (world c w) a p b s → Fit c.solver b.prob s) {out : List (List (Sol ℝ))}
    (h : (Solve.solve (world c w) a).1 = .ok out) :
    ∃ b s q B calls, Handed (world c w) a p b s ∧ indirect c.sympy c.opts p = .ok b.prob ∧ primal c.sympy p = .ok q ∧
      Barriers B ∧ Warm s calls.flatten ∧
      ∀ Γ T T', Dimensional c.functions Γ c.sympy c.opts p b.prob T T' →
        (∀ l ∈ calls, ∀ x ∈ l, WellScaled c.functions Γ b.prob un x.1) →
      List.Forall₂ (List.Forall₂ fun (x : Sol ℝ × Sol ℝ) s' =>
        solvePass c.solver c.functions b.prob (some un) x.1 = .ok (some x.2) ∧
        invIndirect c.sympy c.trig c.rule (real c.functions) c.opts p x.2 = .ok s' ∧ s'.const = x.1.const ∧
        s'.converged = x.2.converged ∧
        ∀ φ D, Sizes c.functions Γ φ → Factored c.functions Γ φ b.prob un x.1 → Largest c.functions φ T' D →
        (s'.converged = true → (∀ d ∈ x.2.dyn, 0 < d) → ∀ Q, Completes c.functions p Q →
          ∀ y, x.2.y = .rows b.prob.states.length (x.2.t.map y) → ∀ t₁ t₂ ε, t₁ = x.1.t.getD 0 0 → t₂ = lastT x.1.t →
            ε = c.solver.tol * D →
          ∀ δ M N V η, 0 ≤ δ → 0 ≤ N → η = (if c.opts.controlMethod = .algebraic then 0 else ε + δ * N * (t₂ - t₁)) →
            Strays c.functions b.prob δ t₁ t₂ y x.2.dyn s'.const →
          ∀ ρ, Reads c.functions b.prob t₁ t₂ y x.2.dyn x.2.nondyn s'.const ρ → Regular c.sympy c.functions q b.prob t₁ t₂ ρ →
            Sized c.functions q M N V t₁ t₂ ρ →
          ∃ t₀ e z lam ν₀ ν₁, 0 < e ∧
            s'.t = x.2.t.map (fun τ => t₀ + e * (τ - t₁)) ∧ Returned Q p z lam s' ∧ Drawn ρ t₁ t₀ e z lam ν₀ ν₁ ∧
            NearlyBest c.functions Q B p ε η (δ / e) t₀ (t₀ + e * (t₂ - t₁)) z lam ν₀ ν₁)) calls out := by
  obtain ⟨b, s, q, B, calls, h1, h2, h3, hB, h4, h5⟩ := C82_solve_autoscaled_partial hL hS hm hR hO hun hp hH ha hb hmeth hd hfit h
  refine ⟨b, s, q, B, calls, h1, h2, h3, hB, h4, fun Γ T T' hdim hgood =>
    (h5 Γ T T' hdim hgood).imp fun l l' hll => hll.imp fun x s' hx => ?_⟩
  obtain ⟨k1, k2, k3, k4, k5⟩ := hx
  refine ⟨k1, k2, k3, k4, ?_⟩
  intro φ D hφ hF hD hc hpos Q hQ y hy t₁ t₂ ε ht₁ ht₂ hε δ M N V η hδ hN hη hst ρ hread hreg hz
  obtain ⟨t₀, e, z, lam, ν₀, ν₁, m1, -, m3, m4, m5, m6⟩ := k5 φ D hφ hF hD hc hpos Q hQ y hy t₁ t₂ ε ht₁ ht₂ hε δ M N V η hδ hN hη hst ρ
    hread hreg hz
  exact ⟨t₀, e, z, lam, ν₀, ν₁, m1, m3, m4, m5, m6.nearly hB
    (m5.continuous m1 (path_continuous hL hp hm (known_method hd) h2 h3 hB hQ hread hreg hst))⟩

/-! ### A concrete case

The problem of `Convex.lean`: from `x = 0` to `x = 1` in time one, with `-1 < x < 3` at the end and the activator 1. -/

theorem barredRoomy (U : Name → Nat → ℝ → ℝ) {z : ℝ → Env} (h1 : z 1 "x" = 1) (h2 : z 1 "eps" = 1)
    (hz : MeasureTheory.IntegrableOn (fun t => eval (real U) (exQ (z t)) exP.costPath) (Set.Icc 0 1)) :
    Roomy U exQ exP 1 (1 / 2) 0 1 z where
  activator := by norm_num
  margin := by norm_num
  path := by simp [exP]
  initial := by
    intro c hc h2
    simp [exP] at hc
    rcases hc with rfl | rfl <;> simp [Con.twoSided] at h2
  terminal := by
    intro c hc h
    simp [exP] at hc
    rcases hc with rfl | rfl
    · simp [Con.twoSided] at h
    · intro act ha lo hl hi hu
      simp at ha hl hu
      subst ha hl hu
      simp [eval, Opt.exQ, h1, h2]
      norm_num
  cost := hz

/-- The tables for `x = t` come out, and its stated cost is at most one more than that of any admissible curve between the bounds,
without penalties; `x = t²` is such a curve. -/
example (U : Name → Nat → ℝ → ℝ) (O : TrigOps ℝ) (hO : O.sin = Real.sin) :
    ∃ s', invIndirect exS O trapezoids (real U) exO exP barredSol = .ok s' ∧ s'.y = .rows 1 [[0], [1 / 2], [1]] ∧
      ∃ B lam, Barriers B ∧ Returned exQ exP barred lam s' ∧ Feasible U exQ exP 0 1 barred ∧
        Admissible (userOcp U exQ B exP) 0 1 barred late ∧ Roomy U exQ exP 1 (1 / 2) 0 1 late ∧
        ∀ z, Admissible (userOcp U exQ B exP) 0 1 barred z → (∀ t ∈ Set.Icc (0 : ℝ) 1, -1 < z t "x" ∧ z t "x" < 3) →
          statedCost U exQ exP 0 1 barred ≤ statedCost U exQ exP 0 1 z + 1 := by
  obtain ⟨s', hs'⟩ : ∃ s', invIndirect exS O trapezoids (real U) exO exP barredSol = .ok s' := by
    refine ok_of ?_
    rfl
  have hf : s'.t = [0, 1 / 2, 1] ∧ s'.y = .rows 1 [[0], [1 / 2], [1]] := by
    have hs' := hs'
    cases hs'
    exact ⟨rfl, rfl⟩
  obtain ⟨q, B, hq, hB, key⟩ := C85_nearly_optimal_partial (luSound_cramer exS rfl) exP_stated (o := exO) rfl (by decide)
    (fun _ => exS_sound) exP'_ok
  rw [exq_ok] at hq
  cases hq
  obtain ⟨t₀, c, x, lam, ν₀, ν₁, hc, ht, hret, hdr, hmin⟩ := key U exQ (exQ_completes U) O trapezoids hO 0 1 _ _ _ _ _ (by norm_num)
    (barredNum U) (barredRead U) (barredRegular U) (by simp) barredSol s' (by simp [barredSol, exSol, exGrid])
    (by simp only [barredSol, exSol, exGrid]; intro τ hτ; simp at hτ; rcases hτ with rfl | rfl | rfl <;> norm_num) rfl rfl rfl hs'
  have ht0 : t₀ = 0 ∧ c = 1 := by
    rw [hf.1, show barredSol.t = [0, 1 / 2, 1] from rfl] at ht
    simp at ht
    exact ⟨ht.1.symm, by linarith [ht.1, ht.2.2]⟩
  obtain ⟨rfl, rfl⟩ := ht0
  have hx : x = barred := by
    funext t
    rw [hdr.curve]
    norm_num
  subst hx
  have hpath : ∀ σ, (userOcp U exQ B exP).path σ = eval (real U) (exQ σ) exP.costPath := by
    intro σ
    simp [userOcp, exP, eval, Opt.exQ, penalties]
  have hcost : MeasureTheory.IntegrableOn (fun t => (userOcp U exQ B exP).path (barred t)) (Set.Icc 0 1) := by
    simp only [hpath]
    simp [exP, eval, Opt.exQ, barred, exCurve]
  have e : (0 : ℝ) + 1 * (1 - 0) = 1 := by norm_num
  rw [e] at hmin
  have hmin := hmin (by simpa only [hpath] using hcost)
  have main : ∀ z, Admissible (userOcp U exQ B exP) 0 1 barred z → (∀ t ∈ Set.Icc (0 : ℝ) 1, -1 < z t "x" ∧ z t "x" < 3) →
      Roomy U exQ exP 1 (1 / 2) 0 1 z ∧ Feasible U exQ exP 0 1 barred ∧
        statedCost U exQ exP 0 1 barred ≤ statedCost U exQ exP 0 1 z + 1 := by
    intro z hz hb
    have heps : ∀ t ∈ Set.Icc (0 : ℝ) 1, z t "eps" = 1 := by
      intro t ht
      rw [hz.others t ht "eps" (by simp [Ocp.states, userOcp, exP, epsControls])]
      simp [barred]
    have hend : z 1 "x" = 1 := by
      have := hz.terminal (fun σ => eval (real U) (exQ σ) (sym "x" - 1)) (by simp [userOcp, exP, Con.twoSided])
      simp [eval, Opt.exQ] at this
      linarith
    have hr := barredRoomy U hend (heps 1 (by simp)) (by simpa only [hpath] using hz.cost)
    have := hmin _ z 1 (1 / 2) (barredConvex U fun t ht => ⟨heps t ht, hb t ht⟩) hz hr
    refine ⟨hr, this.1, ?_⟩
    have hn : burden exP 0 1 = 1 := by simp [burden, exP, Con.twoSided]
    rw [hn] at this
    norm_num at this
    exact this.2
  have hl := main late (lateAdmissible U B) (by
    intro t ht
    simp only [late, if_true]
    constructor <;> nlinarith [ht.1, ht.2])
  exact ⟨s', hs', hf.2, B, lam, hB, hret, hl.2.1, lateAdmissible U B, hl.1, fun z hz hb => (main z hz hb).2.2⟩

end Beluga.E2E
