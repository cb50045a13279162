import Verif.EndToEnd.DefectRun
import Verif.EndToEnd.Continuous
import Verif.Extremal.Sufficient

/-!
# For convex problems the returned solution is a minimum

What beluga computes satisfies first-order conditions.  For a problem whose equations of motion and boundary conditions are affine and
whose costs are convex, these conditions are sufficient: no admissible trajectory over the same time has a lower cost.  The cost is
that of the problem with the penalties of the two-sided constraints, which are convex as well.
-/

namespace Beluga.E2E

open Beluga.Sym Beluga.Sym.Expr Beluga.Num Beluga.Map Beluga.Opt Beluga.Rep
open Beluga.Shoot (lastT)

/-! ### Specification -/

/-- `f` is affine on `D`. -/
def AffineOn (D : Set Env) (f : Env → ℝ) : Prop :=
  ∀ σ ∈ D, ∀ τ ∈ D, ∀ a b : ℝ, 0 ≤ a → 0 ≤ b → a + b = 1 → f (a • σ + b • τ) = a * f σ + b * f τ

/-- On `D` a two-sided constraint is handled by 'utm', its expression is affine, its bounds and its activator do not change, and it
holds. -/
structure Between (U : Name → Nat → ℝ → ℝ) (Q : Env → Env) (D : Set Env) (c : Con) : Prop where
  method : c.method = .utm
  affine : AffineOn D fun σ => eval (real U) (Q σ) c.expr
  bounds : ∃ a lo hi : ℝ, 0 < a ∧ lo < hi ∧ ∀ σ ∈ D, (∀ e ∈ c.activator, eval (real U) (Q σ) e = a) ∧
    (∀ e ∈ c.lower, eval (real U) (Q σ) e = lo) ∧ (∀ e ∈ c.upper, eval (real U) (Q σ) e = hi) ∧
    lo < eval (real U) (Q σ) c.expr ∧ eval (real U) (Q σ) c.expr < hi

/-- A cost and constraints as the user states them are convex on `D`. -/
structure ConvexPart (U : Name → Nat → ℝ → ℝ) (Q : Env → Env) (D : Set Env) (cost : Expr) (cons : List Con) : Prop where
  cost : ConvexOn ℝ D fun σ => eval (real U) (Q σ) cost
  equalities : ∀ c ∈ cons, c.twoSided = false → AffineOn D fun σ => eval (real U) (Q σ) c.expr
  inequalities : ∀ c ∈ cons, c.twoSided = true → Between U Q D c

/-- The stated problem is convex on the sets `D t`, which contain the trajectories `x` and `z` and with `x` all small changes of the
states and controls: the equations of motion are affine, the parts of the cost are convex, and the initial and terminal parts do not
depend on the controls. -/
structure ConvexStated (U : Name → Nat → ℝ → ℝ) (Q : Env → Env) (p : Prob) (D : ℝ → Set Env) (a b : ℝ) (x z : ℝ → Env) : Prop where
  lt : a < b
  motion : ∀ t ∈ Set.Ioo a b, ∀ d ∈ p.states, AffineOn (D t) fun σ => eval (real U) (Q σ) d.eom
  path : ∀ t ∈ Set.Ioo a b, ConvexPart U Q (D t) p.costPath p.path
  initial : ConvexPart U Q (D a) p.costInitial p.initial
  terminal : ConvexPart U Q (D b) p.costTerminal p.terminal
  ends : ∀ u ∈ p.controls, ∀ σ v, ∀ e ∈ [p.costInitial, p.costTerminal] ++
    (p.initial ++ p.terminal).flatMap (fun c => parts c ++ c.activator.toList),
    eval (real U) (Q (Function.update σ u v)) e = eval (real U) (Q σ) e
  inside : ∀ t ∈ Set.Icc a b, x t ∈ D t ∧ z t ∈ D t
  around : ∀ t ∈ Set.Icc a b, ∀ s ∈ p.states.map Dyn.name ++ p.controls, ∀ᶠ v in nhds (x t s), Function.update (x t) s v ∈ D t

/-- For a convex problem the trajectory `x` is a minimum up to errors: it costs at most as much more than an admissible trajectory `z`
over the same time as the errors `ε` at the ends, `η` in the stationarity of the controls and `δ` in the differential equations are
worth, given the distance of `z` and the sizes of the costates and multipliers. -/
def Nearest (U : Name → Nat → ℝ → ℝ) (Q : Env → Env) (B : ℝ → ℝ → ℝ → ℝ → ℝ) (p : Prob) (ε η δ a b : ℝ) (x : ℝ → Env)
    (lam : ℝ → Name → ℝ) (ν₀ ν₁ : Nat → ℝ) : Prop :=
  ∀ D z, ConvexStated U Q p D a b x z → Admissible (userOcp U Q B p) a b x z →
    ∀ E F, (∀ t ∈ Set.Ioo a b, δ * ((p.states.map fun d => |z t d.name - x t d.name| + |lam t d.name|).sum) +
        η * (p.controls.map fun u => |z t u - x t u|).sum ≤ E) →
      ε * ((p.states.map fun d => |z a d.name - x a d.name| + |z b d.name - x b d.name|).sum +
        ((p.initial.filter fun c => !c.twoSided).zipIdx.map fun c => |ν₀ c.2|).sum +
        ((p.terminal.filter fun c => !c.twoSided).zipIdx.map fun c => |ν₁ c.2|).sum) ≤ F →
      (userOcp U Q B p).cost a b x ≤ (userOcp U Q B p).cost a b z + E * (b - a) + F

/-! ### Lemmas -/

theorem AffineOn.convex {D : Set Env} {f : Env → ℝ} (hD : Convex ℝ D) (h : AffineOn D f) (c : ℝ) : ConvexOn ℝ D fun σ => c * f σ := by
  refine ⟨hD, fun σ hσ τ hτ a b ha hb hab => le_of_eq ?_⟩
  dsimp only
  rw [h σ hσ τ hτ a b ha hb hab]
  simp only [smul_eq_mul]
  ring

theorem convex_list_sum {α : Type} {D : Set Env} (hD : Convex ℝ D) {l : List α} {f : α → Env → ℝ} (h : ∀ c ∈ l, ConvexOn ℝ D (f c)) :
    ConvexOn ℝ D fun σ => (l.map fun c => f c σ).sum := by
  induction l with
  | nil => simpa using convexOn_const (0 : ℝ) hD
  | cons c l ih =>
    simp only [List.map_cons, List.sum_cons]
    exact (h c (by simp)).add (ih fun d hd => h d (by simp [hd]))

/-- The penalty of a constraint that holds on `D` is convex there. -/
theorem Between.convex {U : Name → Nat → ℝ → ℝ} {Q : Env → Env} {D : Set Env} {c : Con} {B : ℝ → ℝ → ℝ → ℝ → ℝ} (hD : Convex ℝ D)
    (hB : Barriers B) (h : Between U Q D c) :
    ConvexOn ℝ D fun σ => penalty B U (Q σ) c := by
  obtain ⟨a, lo, hi, ha, hlt, hb⟩ := h.bounds
  cases hact : c.activator with
  | none => simpa [penalty, h.method, hact] using convexOn_const (0 : ℝ) hD
  | some ea =>
    cases hlo : c.lower with
    | none => simpa [penalty, h.method, hact, hlo] using convexOn_const (0 : ℝ) hD
    | some el =>
      cases hhi : c.upper with
      | none => simpa [penalty, h.method, hact, hlo, hhi] using convexOn_const (0 : ℝ) hD
      | some eh =>
        have hpen : ∀ σ ∈ D, penalty B U (Q σ) c = B a lo hi (eval (real U) (Q σ) c.expr) := by
          intro σ hσ
          obtain ⟨h1, h2, h3, -⟩ := hb σ hσ
          simp only [penalty, h.method, hact, hlo, hhi]
          rw [h1 ea hact, h2 el hlo, h3 eh hhi]
        have hcv := (hB.barrier a lo hi ha hlt).convex
        refine ⟨hD, fun σ hσ τ hτ α β hα hβ hαβ => ?_⟩
        dsimp only
        have haff : eval (real U) (Q (α • σ + β • τ)) c.expr = α * eval (real U) (Q σ) c.expr + β * eval (real U) (Q τ) c.expr :=
          h.affine σ hσ τ hτ α β hα hβ hαβ
        rw [hpen σ hσ, hpen τ hτ, hpen _ (hD hσ hτ hα hβ hαβ), haff]
        exact hcv.2 ⟨(hb σ hσ).2.2.2.1, (hb σ hσ).2.2.2.2⟩ ⟨(hb τ hτ).2.2.2.1, (hb τ hτ).2.2.2.2⟩ hα hβ hαβ

theorem ConvexPart.penalised {U : Name → Nat → ℝ → ℝ} {Q : Env → Env} {D : Set Env} {cost : Expr} {cons : List Con}
    {B : ℝ → ℝ → ℝ → ℝ → ℝ} (hB : Barriers B) (h : ConvexPart U Q D cost cons) :
    ConvexOn ℝ D fun σ => eval (real U) (Q σ) cost + penalties B U (Q σ) cons := by
  refine h.cost.add (convex_list_sum h.cost.1 fun c hc => ?_)
  obtain ⟨h1, h2⟩ := List.mem_filter.1 hc
  exact (h.inequalities c h1 h2).convex h.cost.1 hB

theorem ConvexPart.lagrange {U : Name → Nat → ℝ → ℝ} {Q : Env → Env} {D : Set Env} {cost : Expr} {cons : List Con}
    {B : ℝ → ℝ → ℝ → ℝ → ℝ} (hB : Barriers B) (h : ConvexPart U Q D cost cons)
    (ν : Nat → ℝ) :
    ConvexOn ℝ D (lagrange (fun σ => eval (real U) (Q σ) cost + penalties B U (Q σ) cons)
      ((cons.filter fun c => !c.twoSided).map fun c σ => eval (real U) (Q σ) c.expr) ν) := by
  refine (h.penalised hB).add (convex_list_sum h.cost.1 fun c hc => ?_)
  obtain ⟨c', hc', e⟩ := List.mem_map.1 (List.fst_mem_of_mem_zipIdx hc)
  obtain ⟨h1, h2⟩ := List.mem_filter.1 hc'
  rw [← e]
  exact (h.equalities c' h1 (by simpa using h2)).convex h.cost.1 _

theorem penalty_congr {U : Name → Nat → ℝ → ℝ} {B : ℝ → ℝ → ℝ → ℝ → ℝ} {ρ ρ' : Env} {c : Con} (hm : c.method = .utm)
    (h : ∀ e ∈ parts c ++ c.activator.toList, eval (real U) ρ e = eval (real U) ρ' e) : penalty B U ρ c = penalty B U ρ' c := by
  have h1 := h c.expr (by simp [parts])
  cases hact : c.activator with
  | none => simp [penalty, hm, hact]
  | some ea =>
    cases hlo : c.lower with
    | none => simp [penalty, hm, hact, hlo]
    | some el =>
      cases hhi : c.upper with
      | none => simp [penalty, hm, hact, hlo, hhi]
      | some eh =>
        simp only [penalty, hm, hact, hlo, hhi]
        rw [h1, h ea (by simp [hact]), h el (by simp [parts, hlo]), h eh (by simp [parts, hhi])]

/-- One end does not depend on the controls. -/
theorem lagrange_congr {U : Name → Nat → ℝ → ℝ} {Q : Env → Env} {B : ℝ → ℝ → ℝ → ℝ → ℝ} {cost : Expr} {cons : List Con} {σ τ : Env}
    (ν : Nat → ℝ) (hm : ∀ c ∈ cons, c.twoSided = true → c.method = .utm)
    (h : ∀ e ∈ cost :: cons.flatMap (fun c => parts c ++ c.activator.toList), eval (real U) (Q σ) e = eval (real U) (Q τ) e) :
    lagrange (fun σ => eval (real U) (Q σ) cost + penalties B U (Q σ) cons)
      ((cons.filter fun c => !c.twoSided).map fun c σ => eval (real U) (Q σ) c.expr) ν σ =
    lagrange (fun σ => eval (real U) (Q σ) cost + penalties B U (Q σ) cons)
      ((cons.filter fun c => !c.twoSided).map fun c σ => eval (real U) (Q σ) c.expr) ν τ := by
  have hc : ∀ c ∈ cons, ∀ e ∈ parts c ++ c.activator.toList, eval (real U) (Q σ) e = eval (real U) (Q τ) e := fun c hc e he =>
    h e (List.mem_cons_of_mem _ (List.mem_flatMap.2 ⟨c, hc, he⟩))
  have h1 : penalties B U (Q σ) cons = penalties B U (Q τ) cons := by
    rw [penalties, penalties]
    congr 1
    refine List.map_congr_left fun c hcc => ?_
    obtain ⟨g1, g2⟩ := List.mem_filter.1 hcc
    exact penalty_congr (hm c g1 g2) (hc c g1)
  simp only [Opt.lagrange]
  rw [h cost (by simp), h1]
  congr 2
  refine List.map_congr_left fun c hcc => ?_
  obtain ⟨c', hc', e⟩ := List.mem_map.1 (List.fst_mem_of_mem_zipIdx hcc)
  obtain ⟨g1, -⟩ := List.mem_filter.1 hc'
  rw [← e]
  dsimp only
  rw [hc c' g1 c'.expr (by simp [parts])]

theorem userOcp_states (U : Name → Nat → ℝ → ℝ) (Q : Env → Env) (B : ℝ → ℝ → ℝ → ℝ → ℝ) (p : Prob) :
    (userOcp U Q B p).states = p.states.map Dyn.name := by
  simp [Ocp.states, userOcp]

/-- A convex problem has no controls bounded by 'epstrig'. -/
theorem ConvexStated.controls {U : Name → Nat → ℝ → ℝ} {Q : Env → Env} {p : Prob} {D : ℝ → Set Env} {a b : ℝ} {x z : ℝ → Env}
    (h : ConvexStated U Q p D a b x z) (hp : Stated p) (B : ℝ → ℝ → ℝ → ℝ → ℝ) : (userOcp U Q B p).controls = p.controls := by
  have hab := h.lt
  have hm : (a + b) / 2 ∈ Set.Ioo a b := ⟨by linarith, by linarith⟩
  have he : epsControls p.path = [] := by
    rw [epsControls, List.filterMap_eq_nil_iff]
    intro c hc
    have := ((h.path _ hm).inequalities c hc (hp.inside c hc)).method
    simp [this]
  change (p.controls.map fun u => if u ∈ epsControls p.path then trigName u else u) = _
  rw [he]
  simp

theorem ConvexStated.along {U : Name → Nat → ℝ → ℝ} {Q : Env → Env} {p : Prob} {D : ℝ → Set Env} {a b : ℝ} {x z : ℝ → Env}
    {B : ℝ → ℝ → ℝ → ℝ → ℝ} (hp : Stated p) (hB : Barriers B)
    (h : ConvexStated U Q p D a b x z) (lam : ℝ → Name → ℝ) (ν₀ ν₁ : Nat → ℝ) : ConvexAlong (userOcp U Q B p) a b lam ν₀ ν₁ x z := by
  have hab := h.lt
  have hc := h.controls hp B
  have hs := userOcp_states U Q B p
  refine ⟨?_, ?_, ?_, ?_⟩
  · intro t ht
    have ht' : t ∈ Set.Icc a b := ⟨ht.1.le, ht.2.le⟩
    refine ⟨D t, ?_, (h.inside t ht').1, (h.inside t ht').2, by rw [hs, hc]; exact h.around t ht'⟩
    refine ((h.path t ht).penalised hB).add (convex_list_sum (h.path t ht).cost.1 fun r hr => ?_)
    obtain ⟨d, hd, e⟩ := List.mem_map.1 hr
    rw [← e]
    exact (h.motion t ht d hd).convex (h.path t ht).cost.1 _
  · have ht' : a ∈ Set.Icc a b := ⟨le_refl _, hab.le⟩
    exact ⟨D a, h.initial.lagrange hB ν₀, (h.inside a ht').1, (h.inside a ht').2, by rw [hs, hc]; exact h.around a ht'⟩
  · have ht' : b ∈ Set.Icc a b := ⟨hab.le, le_refl _⟩
    exact ⟨D b, h.terminal.lagrange hB ν₁, (h.inside b ht').1, (h.inside b ht').2, by rw [hs, hc]; exact h.around b ht'⟩
  · rw [hc]
    intro u hu σ v
    have he := h.ends u hu σ v
    refine ⟨lagrange_congr ν₀ (fun c hc h2 => (h.initial.inequalities c hc h2).method) fun e hm => he e ?_,
      lagrange_congr ν₁ (fun c hc h2 => (h.terminal.inequalities c hc h2).method) fun e hm => he e ?_⟩
    · rcases List.mem_cons.1 hm with rfl | hm
      · simp
      · obtain ⟨c, h1, h2⟩ := List.mem_flatMap.1 hm
        exact List.mem_append_right _ (List.mem_flatMap.2 ⟨c, List.mem_append_left _ h1, h2⟩)
    · rcases List.mem_cons.1 hm with rfl | hm
      · simp
      · obtain ⟨c, h1, h2⟩ := List.mem_flatMap.1 hm
        exact List.mem_append_right _ (List.mem_flatMap.2 ⟨c, List.mem_append_right _ h1, h2⟩)

theorem nodup_of_stated {U : Name → Nat → ℝ → ℝ} {Q : Env → Env} {p : Prob} {D : ℝ → Set Env} {a b : ℝ} {x z : ℝ → Env}
    (h : ConvexStated U Q p D a b x z) (hp : Stated p) (B : ℝ → ℝ → ℝ → ℝ → ℝ) :
    ((userOcp U Q B p).states ++ (userOcp U Q B p).controls).Nodup := by
  rw [h.controls hp B, userOcp_states]
  have := hp.names
  refine this.sublist ?_
  have e : p.states.map Dyn.name ++ p.controls = p.states.map Dyn.name ++ [] ++ p.controls ++ [] ++ [] ++ [] := by simp
  rw [e]
  refine List.Sublist.append (List.Sublist.append (List.Sublist.append (List.Sublist.append (List.Sublist.append ?_ ?_) ?_) ?_) ?_) ?_ <;>
    simp

theorem zipIdx_map_sum {α β : Type} (f : α → β) (g : Nat → ℝ) (l : List α) (k : Nat) :
    (((l.map f).zipIdx k).map fun c => g c.2).sum = ((l.zipIdx k).map fun c => g c.2).sum := by
  induction l generalizing k with
  | nil => rfl
  | cons c l ih => simp only [List.map_cons, List.zipIdx_cons, List.sum_cons, ih]

theorem sum_map_two {α : Type} (l : List α) (f g : α → ℝ) : (l.map fun c => f c + g c).sum = (l.map f).sum + (l.map g).sum := by
  induction l with
  | nil => simp
  | cons c l ih =>
    simp only [List.map_cons, List.sum_cons, ih]
    ring

theorem _root_.Beluga.Opt.DefectExtremal.nearest {U : Name → Nat → ℝ → ℝ} {Q : Env → Env} {B : ℝ → ℝ → ℝ → ℝ → ℝ} {p : Prob}
    {ε η δ κ a b : ℝ} {x : ℝ → Env} {lam : ℝ → Name → ℝ} {ν₀ ν₁ : Nat → ℝ} (hp : Stated p)
    (hB : Barriers B)
    (h : DefectExtremal (userOcp U Q B p) ε η δ κ a b x lam ν₀ ν₁)
    (hx : ContinuousOn (fun t => (userOcp U Q B p).path (x t)) (Set.Icc a b)) : Nearest U Q B p ε η δ a b x lam ν₀ ν₁ := by
  intro D z hD hz E F hE hF
  have hx := hx.integrableOn_Icc (μ := MeasureTheory.volume)
  have hc := hD.controls hp B
  have hs := userOcp_states U Q B p
  refine h.suboptimal hD.lt.le (nodup_of_stated hD hp B) hz (hD.along hp hB lam ν₀ ν₁) hx ?_ ?_
  · intro t ht
    have := hE t ht
    rw [sum_map_two] at this
    rw [hs, hc, List.map_map, List.map_map]
    exact this
  · rw [sum_map_two] at hF
    have e0 := zipIdx_map_sum (fun c σ => eval (real U) (Q σ) c.expr) (fun i => |ν₀ i|) (p.initial.filter fun c => !c.twoSided) 0
    have e1 := zipIdx_map_sum (fun c σ => eval (real U) (Q σ) c.expr) (fun i => |ν₁ i|) (p.terminal.filter fun c => !c.twoSided) 0
    rw [← e0, ← e1] at hF
    rw [hs, List.map_map, List.map_map]
    exact hF

theorem known_method {m : Method} {b : Prop} [Decidable b] (h : m = if b then .diffyg else .traditional) : m ≠ .other := by
  rw [h]
  split <;> decide

/-! ### The property -/

/-- The tables that the user gets for an exact solution of the compiled boundary value problem are samples of a trajectory of minimal
cost, if the stated problem is convex: it is admissible, and no admissible trajectory over the same time costs less.

Missing from the full property: trajectories over another time, if the end times are free; controls bounded by 'epstrig', in which the
problem is not convex; the cost contains the penalties (`C72_violated`); everything that is missing from `C73_returned_partial`. -/
theorem C82_minimum_partial {S : Sympy} (hL : LuSound S) {o : Opts} {p p' : Prob} (hp : Stated p)
    (hm : o.momentumShift = true) (hd : o.method ≠ .other) (hS : o.controlMethod = .algebraic → SolveSound S)
    (h : indirect S o p = .ok p') :
    ∃ q B, primal S p = .ok q ∧ Barriers B ∧
      ∀ U Q, Completes U p Q → ∀ (O : TrigOps ℝ) rule, O.sin = Real.sin →
      ∀ a b y pr pc k ρ, a ≤ b → NumSol U p' a b y pr pc k → Reads U p' a b y pr pc k ρ → Regular S U q p' a b ρ →
        (∀ x ∈ pr, 0 < x) →
      ∀ s s' : Sol ℝ, s.t ≠ [] → (∀ τ ∈ s.t, τ ∈ Set.Icc a b) → s.y = .rows p'.states.length (s.t.map y) → s.dyn = pr →
        s.const = k → invIndirect S O rule (real U) o p s = .ok s' →
      ∃ t₀ c x lam ν₀ ν₁, 0 < c ∧ s'.t = s.t.map (fun τ => t₀ + c * (τ - a)) ∧ Returned Q p x lam s' ∧
        Drawn ρ a t₀ c x lam ν₀ ν₁ ∧
        Admissible (userOcp U Q B p) t₀ (t₀ + c * (b - a)) x x ∧
        ∀ D z, ConvexStated U Q p D t₀ (t₀ + c * (b - a)) x z → Admissible (userOcp U Q B p) t₀ (t₀ + c * (b - a)) x z →
          (userOcp U Q B p).cost t₀ (t₀ + c * (b - a)) x ≤ (userOcp U Q B p).cost t₀ (t₀ + c * (b - a)) z := by
  obtain ⟨q, B, hq, hB, key⟩ := C73_returned_partial hL hp hm hd hS h
  refine ⟨q, B, hq, hB, ?_⟩
  intro U Q hQ O rule hO a b y pr pc k ρ hab hnum hread hreg hpr s s' hne hgrid hy hdyn hconst hinv
  obtain ⟨t₀, c, x, lam, ν₀, ν₁, g1, g2, g3, g4, -, -, -, -, g5⟩ := key U Q hQ O rule hO a b y pr pc k ρ hab hnum hread hreg hpr s s' hne hgrid hy
    hdyn hconst hinv
  have hx := (g5.continuous g1 (path_continuous hL hp hm hd h hq hB hQ hread hreg hnum.strays)).integrableOn_Icc
    (μ := MeasureTheory.volume)
  refine ⟨t₀, c, x, lam, ν₀, ν₁, g1, g3, g4, g5, ?_, ?_⟩
  · refine ⟨fun _ _ _ _ => rfl, ?_, ?_, g2.initial, g2.terminal, hx⟩
    · exact fun r hr t ht => (g2.motion r hr t ht).continuousAt.continuousWithinAt
    · exact fun r hr t ht => (g2.motion r hr t ⟨ht.1.le, ht.2.le⟩).hasDerivWithinAt
  · intro D z hD hz
    exact g2.minimum hD.lt.le (nodup_of_stated hD hp B) hz (hD.along hp hB lam ν₀ ν₁) hx

/-- Whatever `solve` returns for a stated problem that is convex (an indirect method, no autoscaling): each returned trajectory that is
flagged as converged consists of samples of a curve whose cost exceeds that of any admissible trajectory over the same time at most by
what the tolerance of the solver and the defect of a curve through its rows are worth.

Missing from the full property: what is missing from `C81_solve_partial` and `C82_minimum_partial`. -/
theorem C82_solve_partial {c : Config} (hL : LuSound c.sympy) (hS : c.opts.controlMethod = .algebraic → SolveSound c.sympy)
    (hm : c.opts.momentumShift = true) (hR : c.solver.Ok) (hO : c.trig.sin = Real.sin) (hun : c.units = none)
    {w : Solve.World Prob Bvp (Sol ℝ)} {a : Solve.Args Prob Bvp (Sol ℝ)} {p : Prob} (hp : Stated p) (ha : a.ocp = some p)
    (hb : a.bvp = none) (hmeth : a.method.toLower ∈ ["indirect", "traditional", "brysonho", "diffyg"])
    (hd : c.opts.method = if a.method.toLower = "diffyg" then .diffyg else .traditional)
    (hfit : ∀ b s, Handed (world c w) a p b s → Fit c.solver b.prob s) {out : List (List (Sol ℝ))}
    (h : (Solve.solve (world c w) a).1 = .ok out) :
    ∃ b s q B calls, Handed (world c w) a p b s ∧ indirect c.sympy c.opts p = .ok b.prob ∧ primal c.sympy p = .ok q ∧
      Barriers B ∧ Warm s calls.flatten ∧
      List.Forall₂ (List.Forall₂ fun (x : Sol ℝ × Sol ℝ) s' =>
        solvePass c.solver c.functions b.prob none x.1 = .ok (some x.2) ∧
        invIndirect c.sympy c.trig c.rule (real c.functions) c.opts p x.2 = .ok s' ∧ s'.const = x.1.const ∧
        s'.converged = x.2.converged ∧
        (s'.converged = true → (∀ d ∈ x.2.dyn, 0 < d) → ∀ Q, Completes c.functions p Q →
          ∀ y, x.2.y = .rows b.prob.states.length (x.2.t.map y) → ∀ t₁ t₂, t₁ = x.1.t.getD 0 0 → t₂ = lastT x.1.t →
          ∀ δ M N V η, 0 ≤ δ → 0 ≤ N → η = (if c.opts.controlMethod = .algebraic then 0 else c.solver.tol + δ * N * (t₂ - t₁)) →
            Strays c.functions b.prob δ t₁ t₂ y x.2.dyn s'.const →
          ∀ ρ, Reads c.functions b.prob t₁ t₂ y x.2.dyn x.2.nondyn s'.const ρ → Regular c.sympy c.functions q b.prob t₁ t₂ ρ →
            Sized c.functions q M N V t₁ t₂ ρ →
          ∃ t₀ e z lam ν₀ ν₁, 0 < e ∧
            DefectExtremal (userOcp c.functions Q B p) c.solver.tol η (δ / e) ((δ * M + η * V) * (t₂ - t₁)) t₀
              (t₀ + e * (t₂ - t₁)) z lam ν₀ ν₁ ∧
            s'.t = x.2.t.map (fun τ => t₀ + e * (τ - t₁)) ∧ Returned Q p z lam s' ∧
            Drawn ρ t₁ t₀ e z lam ν₀ ν₁ ∧
            Nearest c.functions Q B p c.solver.tol η (δ / e) t₀ (t₀ + e * (t₂ - t₁)) z lam ν₀ ν₁)) calls out := by
  obtain ⟨b, s, q, B, calls, h1, h2, h3, hB, h4, h5⟩ := C81_solve_partial hL hS hm hR hO hun hp ha hb hmeth hd hfit h
  refine ⟨b, s, q, B, calls, h1, h2, h3, hB, h4, h5.imp fun l l' hll => hll.imp fun x s' hx => ?_⟩
  obtain ⟨k1, k2, k3, k4, k5⟩ := hx
  refine ⟨k1, k2, k3, k4, ?_⟩
  intro hc hpos Q hQ y hy t₁ t₂ ht₁ ht₂ δ M N V η hδ hN hη hst ρ hread hreg hz
  obtain ⟨t₀, e, z, lam, ν₀, ν₁, m1, m2, m3, m4, m5⟩ := k5 hc hpos Q hQ y hy t₁ t₂ ht₁ ht₂ δ M N V η hδ hN hη hst ρ hread hreg hz
  exact ⟨t₀, e, z, lam, ν₀, ν₁, m1, m2, m3, m4, m5, m2.nearest hp hB
    (m5.continuous m1 (path_continuous hL hp hm (known_method hd) h2 h3 hB hQ hread hreg hst))⟩

/-- The same with autoscaling, the default, for a dimensionally consistent problem, with the tolerance times the largest of the
sizes of the units of the boundary conditions.

Missing from the full property: what is missing from `C81_solve_autoscaled_partial` and `C82_minimum_partial`. -/
theorem C82_solve_autoscaled_partial {c : Config} (hL : LuSound c.sympy)
    (hS : c.opts.controlMethod = .algebraic → SolveSound c.sympy)
    (hm : c.opts.momentumShift = true) (hR : c.solver.Ok) (hO : c.trig.sin = Real.sin) {un : Units} (hun : c.units = some un)
    {w : Solve.World Prob Bvp (Sol ℝ)} {a : Solve.Args Prob Bvp (Sol ℝ)} {p : Prob} (hp : Stated p) (hH : p.hamiltonian = none)
    (ha : a.ocp = some p) (hb : a.bvp = none) (hmeth : a.method.toLower ∈ ["indirect", "traditional", "brysonho", "diffyg"])
    (hd : c.opts.method = if a.method.toLower = "diffyg" then .diffyg else .traditional)
    (hfit : ∀ b s, Handed (world c w) a p b s → Fit c.solver b.prob s) {out : List (List (Sol ℝ))}
    (h : (Solve.solve (world c w) a).1 = .ok out) :
    ∃ b s q B calls, Handed (world c w) a p b s ∧ indirect c.sympy c.opts p = .ok b.prob ∧ primal c.sympy p = .ok q ∧
      Barriers B ∧ Warm s calls.flatten ∧
      ∀ Γ T T', Dimensional c.functions Γ c.sympy c.opts p b.prob T T' →
        (∀ l ∈ calls, ∀ x ∈ l, WellScaled c.functions Γ b.prob un x.1) →
      List.Forall₂ (List.Forall₂ fun (x : Sol ℝ × Sol ℝ) s' =>
        solvePass c.solver c.functions b.prob (some un) x.1 = .ok (some x.2) ∧
        invIndirect c.sympy c.trig c.rule (real c.functions) c.opts p x.2 = .ok s' ∧ s'.const = x.1.const ∧
        s'.converged = x.2.converged ∧
        ∀ φ D, Sizes c.functions Γ φ → Factored c.functions Γ φ b.prob un x.1 → Largest c.functions φ T' D →
        (s'.converged = true → (∀ d ∈ x.2.dyn, 0 < d) → ∀ Q, Completes c.functions p Q →
          ∀ y, x.2.y = .rows b.prob.states.length (x.2.t.map y) → ∀ t₁ t₂ ε, t₁ = x.1.t.getD 0 0 → t₂ = lastT x.1.t →
            ε = c.solver.tol * D →
          ∀ δ M N V η, 0 ≤ δ → 0 ≤ N → η = (if c.opts.controlMethod = .algebraic then 0 else ε + δ * N * (t₂ - t₁)) →
            Strays c.functions b.prob δ t₁ t₂ y x.2.dyn s'.const →
          ∀ ρ, Reads c.functions b.prob t₁ t₂ y x.2.dyn x.2.nondyn s'.const ρ → Regular c.sympy c.functions q b.prob t₁ t₂ ρ →
            Sized c.functions q M N V t₁ t₂ ρ →
          ∃ t₀ e z lam ν₀ ν₁, 0 < e ∧
            DefectExtremal (userOcp c.functions Q B p) ε η (δ / e) ((δ * M + η * V) * (t₂ - t₁)) t₀
              (t₀ + e * (t₂ - t₁)) z lam ν₀ ν₁ ∧
            s'.t = x.2.t.map (fun τ => t₀ + e * (τ - t₁)) ∧ Returned Q p z lam s' ∧
            Drawn ρ t₁ t₀ e z lam ν₀ ν₁ ∧
            Nearest c.functions Q B p ε η (δ / e) t₀ (t₀ + e * (t₂ - t₁)) z lam ν₀ ν₁)) calls out := by
  obtain ⟨b, s, q, B, calls, h1, h2, h3, hB, h4, h5⟩ := C81_solve_autoscaled_partial hL hS hm hR hO hun hp hH ha hb hmeth hd hfit h
  refine ⟨b, s, q, B, calls, h1, h2, h3, hB, h4, fun Γ T T' hdim hgood =>
    (h5 Γ T T' hdim hgood).imp fun l l' hll => hll.imp fun x s' hx => ?_⟩
  obtain ⟨k1, k2, k3, k4, k5⟩ := hx
  refine ⟨k1, k2, k3, k4, ?_⟩
  intro φ D hφ hF hD hc hpos Q hQ y hy t₁ t₂ ε ht₁ ht₂ hε δ M N V η hδ hN hη hst ρ hread hreg hz
  obtain ⟨t₀, e, z, lam, ν₀, ν₁, m1, m2, m3, m4, m5⟩ := k5 φ D hφ hF hD hc hpos Q hQ y hy t₁ t₂ ε ht₁ ht₂ hε δ M N V η hδ hN hη hst ρ
    hread hreg hz
  exact ⟨t₀, e, z, lam, ν₀, ν₁, m1, m2, m3, m4, m5, m2.nearest hp hB
    (m5.continuous m1 (path_continuous hL hp hm (known_method hd) h2 h3 hB hQ hread hreg hst))⟩

/-! ### A concrete case

The problem of `C64_extremal_partial` with the activator 1: minimise `∫ (1 + u²)` plus the penalty for the terminal point over the
motion `x' = u` from 0 to 1. -/

noncomputable def barred (τ : ℝ) (s : Name) : ℝ := if s = "eps" then 1 else exCurve τ s

theorem barred_of_ne {s : Name} (h : s ≠ "eps") : (fun τ => barred τ s) = fun τ => exCurve τ s := funext fun τ => by simp [barred, h]

/-- The penalty is flat in the middle between the bounds. -/
theorem flat_utm (U : Name → Nat → ℝ → ℝ) (v : Name) :
    eval (real U) (barred 1) (diff v (1 / fn .cos (Expr.pi / 2 * (2 * sym "x" - 3 - num (-1)) / (3 - num (-1))) - 1)) = 0 := by
  have h0 : eval (real U) (barred 1) (Expr.pi / 2 * (2 * sym "x" - 3 - num (-1)) / (3 - num (-1))) = 0 := by
    have : barred 1 "x" = 1 := by simp [barred, exCurve]
    simp only [eval_div, eval_sub, eval, this]
    norm_num
  generalize Expr.pi / 2 * (2 * sym "x" - 3 - num (-1)) / (3 - num (-1)) = e at h0 ⊢
  have h1 : eval (real U) (barred 1) (dfn .cos e) = 0 := by
    rw [dfn, eval_neg]
    change -Real.sin (eval (real U) (barred 1) e) = 0
    rw [h0]
    simp
  change eval (real U) (barred 1) (add (add (mul (num 0) (inv (fn .cos e)))
    (mul (num 1) (mul (num (-1)) (mul (mul (dfn .cos e) (diff v e)) (pow (inv (fn .cos e)) 2)))))
    (add (mul (num 0) (num 1)) (mul (num (-1)) (num 0)))) = 0
  simp [eval, h1]

theorem barredSolves (U : Name → Nat → ℝ → ℝ) : Solves U exP' 0 1 barred where
  follows := by
    intro t ht d hd
    rw [exP'_states, exh] at hd
    simp only [List.mem_cons, List.not_mem_nil, or_false] at hd
    rcases hd with rfl | rfl | rfl | rfl
    · have := exCurve_id "x" (by simp) t ht
      rw [barred_of_ne (by decide)]
      simpa [eval, exCurve, barred] using this
    · have := exCurve_id "t" (by simp) t ht
      rw [barred_of_ne (by decide)]
      simpa [eval, exCurve, barred] using this
    · have := exCurve_const "_lam_x" (by decide) (by decide) (by decide) t ht
      rw [barred_of_ne (by decide)]
      simpa [eval, diff, exCurve, barred] using this
    · have := exCurve_const "_lam_t" (by decide) (by decide) (by decide) t ht
      rw [barred_of_ne (by decide)]
      simpa [eval, diff, exCurve, barred] using this
  fixed := by
    intro s h1 h2 h3 h4
    rw [exP'_states] at h1
    rw [exP'_rest.2.2.2] at h4
    simp only [List.map_cons, List.mem_cons, not_or] at h1
    by_cases hs : s = "eps"
    · subst hs
      intro t _
      simpa [barred] using hasDerivAt_const t (1 : ℝ)
    · intro t ht
      rw [barred_of_ne hs]
      exact exCurve_const s h1.1 h1.2.1 h4 t ht
  law := by
    intro _ t _
    rw [exP'_rest.1, exP'_rest.2.1]
    refine ⟨_, List.mem_singleton_self _, ?_⟩
    simp [eval, exCurve, barred]
  initial := by
    intro c hc
    have : c.expr ∈ exP'.initial.map Con.expr := List.mem_map.2 ⟨c, hc, rfl⟩
    rw [exP'_initial, exphi0] at this
    simp only [List.mem_cons, List.not_mem_nil, or_false] at this
    rcases this with h | h | h | h <;> rw [h] <;> simp [eval, diff, exCurve, barred]
  terminal := by
    intro c hc
    have : c.expr ∈ exP'.terminal.map Con.expr := List.mem_map.2 ⟨c, hc, rfl⟩
    rw [exP'_terminal, exphif, exh] at this
    simp only [List.mem_cons, List.not_mem_nil, or_false] at this
    rcases this with h | h | h | h <;> rw [h] <;> simp [eval, diff, utmTerm, flat_utm] <;> simp [exCurve, barred]; norm_num

theorem barredRead (U : Name → Nat → ℝ → ℝ) : Reads U exP' 0 1 (fun τ => [τ, τ, -2, 0]) [1] [2, 0, -2] [1] barred := by
  have h1 : sts exP' = ["x", "t", "_lam_x", "_lam_t"] := by decide +kernel
  have h2 : exP'.parameters = ["_delta_t"] ∧ exP'.constraintParams = ["_nu_0_0", "_nu_0_1", "_nu_f_0"] ∧
    exP'.constants = ["eps"] := by decide +kernel
  obtain ⟨r1, r2, r3, r4⟩ := exP'_rest
  refine ⟨?_, ?_, ?_, ?_, ?_, ?_⟩
  · intro t
    rw [h1]
    simp [exCurve, barred]
  · intro t _ u hu
    obtain ⟨opt, ho, rfl⟩ := computeU_some (σ := barred t) (by rw [h1]; simp [exCurve, barred]) (by rw [h2.1]; simp [exCurve, barred])
      (by rw [h2.2.2]; simp [barred]) hu
    rw [r2, List.mem_singleton] at ho
    subst ho
    rw [r1]
    simp [exCurve, barred, eval]
  · intro t
    rw [h2.1]
    simp [exCurve, barred]
  · intro t
    rw [h2.2.1]
    simp [exCurve, barred]
  · intro t
    rw [h2.2.2]
    simp [barred]
  · intro s n1 n2 n3 t t'
    rw [h1] at n1
    rw [r4] at n3
    simp only [List.mem_cons, not_or] at n1
    simp [exCurve, barred, n1.1, n1.2.1, n3]

theorem barredNum (U : Name → Nat → ℝ → ℝ) : NumSol U exP' 0 1 (fun τ => [τ, τ, -2, 0]) [1] [2, 0, -2] [1] := by
  refine numSol_of_solves (barredRead U) (by norm_num) exP'_rest.2.2.1 (barredSolves U) ?_ ?_
  · intro t _
    refine ok_of ?_
    rfl
  · refine ok_of ?_
    rfl

theorem barredRegular (U : Name → Nat → ℝ → ℝ) : Regular exS U exq exP' 0 1 barred where
  rates := fun t _ => exRates U _
  start := (exEnds U (by simp [exCurve, barred])).start
  stop := (exEnds U (by simp [exCurve, barred])).stop
  ham := by
    intro t _ u _
    rw [exh]
    simp only [diff]
    refine ⟨⟨⟨?_, ⟨?_, ?_⟩, ?_, ?_⟩, ⟨?_, ?_⟩, ?_, ?_⟩, ⟨?_, ?_⟩, ?_, ?_⟩ <;> (try split) <;> trivial
  defined := by
    intro t _ d hd
    rw [exP'_states, exh] at hd
    simp only [List.mem_cons, List.not_mem_nil, or_false] at hd
    rcases hd with rfl | rfl | rfl | rfl
    · exact ⟨trivial, trivial⟩
    · exact ⟨trivial, trivial⟩
    · exact ⟨⟨trivial, ⟨⟨trivial, ⟨trivial, trivial⟩, trivial, trivial⟩, ⟨trivial, trivial⟩, trivial, trivial⟩,
        ⟨trivial, trivial⟩, trivial, trivial⟩, trivial⟩
    · exact ⟨⟨trivial, ⟨⟨trivial, ⟨trivial, trivial⟩, trivial, trivial⟩, ⟨trivial, trivial⟩, trivial, trivial⟩,
        ⟨trivial, trivial⟩, trivial, trivial⟩, trivial⟩
  law := by
    intro t _ opt ho e he
    rw [exP'_rest.2.1, List.mem_singleton] at ho
    subst ho
    rw [List.mem_singleton] at he
    subst he
    refine ⟨⟨trivial, trivial⟩, trivial, ?_⟩
    simp [eval]
  controls := by
    intro t ht u hu
    rw [exP'_rest.1, List.mem_singleton] at hu
    subst hu
    rw [barred_of_ne (by decide)]
    exact (exCurve_const "u" (by decide) (by decide) (by decide) t ht).differentiableAt
  form := by
    intro om ho
    rw [(by decide +kernel : exP'.omega = none)] at ho
    cases ho

/-- Where the bounds of the problem hold. -/
def barredSet : Set Env := {σ | σ "eps" = 1 ∧ -1 < σ "x" ∧ σ "x" < 3}

theorem barredSet_convex : Convex ℝ barredSet := by
  intro σ hσ τ hτ a b ha hb hab
  obtain ⟨h1, h2, h3⟩ := hσ
  obtain ⟨k1, k2, k3⟩ := hτ
  have := convex_Ioo (-1 : ℝ) 3 ⟨h2, h3⟩ ⟨k2, k3⟩ ha hb hab
  refine ⟨?_, this.1, this.2⟩
  simp [h1, k1, hab]

theorem barredConvex (U : Name → Nat → ℝ → ℝ) {z : ℝ → Env} (hz : ∀ t ∈ Set.Icc (0 : ℝ) 1, z t ∈ barredSet) :
    ConvexStated U exQ exP (fun _ => barredSet) 0 1 barred z where
  lt := by norm_num
  motion := by
    intro t _ d hd σ _ τ _ a b _ _ _
    simp [exP] at hd
    subst hd
    simp [eval, Opt.exQ]
  path := by
    intro t _
    refine ⟨⟨barredSet_convex, ?_⟩, by simp [exP], by simp [exP]⟩
    intro σ _ τ _ a b ha hb hab
    simp [exP, eval, Opt.exQ]
    have : a = 1 - b := by linarith
    subst this
    nlinarith [mul_nonneg (mul_nonneg ha hb) (mul_self_nonneg (σ "u" - τ "u"))]
  initial := by
    refine ⟨⟨barredSet_convex, ?_⟩, ?_, ?_⟩
    · intro σ _ τ _ a b _ _ _
      simp [exP]
    · intro c hc _ σ _ τ _ a b _ _ _
      simp [exP] at hc
      rcases hc with rfl | rfl <;> simp [eval, Opt.exQ]
    · intro c hc h2
      simp [exP] at hc
      rcases hc with rfl | rfl <;> simp [Con.twoSided] at h2
  terminal := by
    refine ⟨⟨barredSet_convex, ?_⟩, ?_, ?_⟩
    · intro σ _ τ _ a b _ _ _
      simp [exP]
    · intro c hc h2 σ _ τ _ a b _ _ hab
      simp [exP] at hc
      rcases hc with rfl | rfl
      · simp [eval, Opt.exQ]
        linear_combination hab
      · simp [Con.twoSided] at h2
    · intro c hc h2
      simp [exP] at hc
      rcases hc with rfl | rfl
      · simp [Con.twoSided] at h2
      · refine ⟨rfl, ?_, 1, -1, 3, by norm_num, by norm_num, ?_⟩
        · intro σ _ τ _ a b _ _ _
          simp [eval, Opt.exQ]
        · rintro σ ⟨h1, h3, h4⟩
          simp [eval, Opt.exQ, h1, h3, h4]
  ends := by
    intro u hu σ v e he
    simp [exP] at hu
    subst hu
    simp [exP, parts] at he
    rcases he with rfl | rfl | rfl | rfl | rfl | rfl | rfl | rfl <;> simp [eval, Opt.exQ]
  inside := by
    intro t ht
    refine ⟨?_, hz t ht⟩
    simp only [barredSet, Set.mem_ofPred_eq]
    simp [barred, exCurve]
    constructor <;> linarith [ht.1, ht.2]
  around := by
    intro t ht s hs
    simp [exP] at hs
    rcases hs with rfl | rfl
    · have : barred t "x" ∈ Set.Ioo (-1 : ℝ) 3 := by
        simp [barred, exCurve]
        constructor <;> linarith [ht.1, ht.2]
      filter_upwards [isOpen_Ioo.mem_nhds this] with v hv
      simp only [barredSet, Set.mem_ofPred_eq]
      simpa [barred] using hv
    · refine Filter.Eventually.of_forall fun v => ?_
      simp only [barredSet, Set.mem_ofPred_eq]
      simp [barred, exCurve]
      constructor <;> linarith [ht.1, ht.2]

noncomputable def barredSol : Sol ℝ := { exSol with const := [1] }

/-- A competitor: slow at first, fast at the end. -/
noncomputable def late (τ : ℝ) (s : Name) : ℝ := if s = "x" then τ * τ else if s = "u" then 2 * τ else barred τ s

theorem lateAdmissible (U : Name → Nat → ℝ → ℝ) (B : ℝ → ℝ → ℝ → ℝ → ℝ) : Admissible (userOcp U exQ B exP) 0 1 barred late := by
  have hpath : ∀ σ, (userOcp U exQ B exP).path σ = 1 + σ "u" * σ "u" := by
    intro σ
    simp [userOcp, exP, eval, Opt.exQ, penalties]
  have hr : ∀ r ∈ (userOcp U exQ B exP).rates, r.1 = "x" ∧ ∀ σ, r.2 σ = σ "u" := by
    intro r hr
    simp [userOcp, exP] at hr
    subst hr
    exact ⟨rfl, fun σ => by simp [eval, Opt.exQ]⟩
  have hd : ∀ t, HasDerivAt (fun τ => late τ "x") (2 * t) t := by
    intro t
    have := (hasDerivAt_id t).mul (hasDerivAt_id t)
    have e : (fun τ => late τ "x") = fun τ => τ * τ := funext fun τ => by simp [late]
    rw [e]
    refine this.congr_deriv ?_
    simp
    ring
  refine ⟨?_, ?_, ?_, ?_, ?_, ?_⟩
  · intro t _ s hs
    simp [Ocp.states, userOcp, exP, epsControls] at hs
    simp [late, hs]
  · intro r hr'
    rw [(hr r hr').1]
    exact fun t _ => (hd t).continuousAt.continuousWithinAt
  · intro r hr' t _
    rw [(hr r hr').1, (hr r hr').2]
    have : late t "u" = 2 * t := by simp [late]
    rw [this]
    exact (hd t).hasDerivWithinAt
  · intro c hc
    simp [userOcp, exP, Con.twoSided] at hc
    rcases hc with rfl | rfl <;> simp [eval, Opt.exQ, late, barred, exCurve]
  · intro c hc
    simp [userOcp, exP, Con.twoSided] at hc
    subst hc
    simp [eval, Opt.exQ, late]
  · simp only [hpath]
    have : ContinuousOn (fun t => 1 + late t "u" * late t "u") (Set.Icc 0 1) := by
      have e : (fun t => 1 + late t "u" * late t "u") = fun t => 1 + 2 * t * (2 * t) := funext fun t => by simp [late]
      rw [e]
      exact Continuous.continuousOn (by continuity)
    exact this.integrableOn_Icc

/-- The user gets samples of the line `x = t`; its cost, 2 and the penalty, is the least of all motions from 0 to 1 in unit time that
stay within the bounds; one of these is `x = t²`. -/
example (U : Name → Nat → ℝ → ℝ) (O : TrigOps ℝ) (hO : O.sin = Real.sin) :
    ∃ s', invIndirect exS O trapezoids (real U) exO exP barredSol = .ok s' ∧ s'.y = .rows 1 [[0], [1 / 2], [1]] ∧
      ∃ B lam, Barriers B ∧ Returned exQ exP barred lam s' ∧
        Admissible (userOcp U exQ B exP) 0 1 barred barred ∧ Admissible (userOcp U exQ B exP) 0 1 barred late ∧
        ∀ z, Admissible (userOcp U exQ B exP) 0 1 barred z → (∀ t ∈ Set.Icc (0 : ℝ) 1, -1 < z t "x" ∧ z t "x" < 3) →
          (userOcp U exQ B exP).cost 0 1 barred ≤ (userOcp U exQ B exP).cost 0 1 z := by
  obtain ⟨s', hs'⟩ : ∃ s', invIndirect exS O trapezoids (real U) exO exP barredSol = .ok s' := by
    refine ok_of ?_
    rfl
  have hf : s'.t = [0, 1 / 2, 1] ∧ s'.y = .rows 1 [[0], [1 / 2], [1]] := by
    have hs' := hs'
    cases hs'
    exact ⟨rfl, rfl⟩
  obtain ⟨q, B, hq, hB, key⟩ := C82_minimum_partial (luSound_cramer exS rfl) exP_stated (o := exO) rfl (by decide)
    (fun _ => exS_sound) exP'_ok
  rw [exq_ok] at hq
  cases hq
  obtain ⟨t₀, c, x, lam, ν₀, ν₁, hc, ht, hret, hdr, hmin⟩ := key U exQ (exQ_completes U) O trapezoids hO 0 1 _ _ _ _ _ (by norm_num)
    (barredNum U) (barredRead U) (barredRegular U) (by simp) barredSol s' (by simp [barredSol, exSol, exGrid])
    (by simp only [barredSol, exSol, exGrid]; intro τ hτ; simp at hτ; rcases hτ with rfl | rfl | rfl <;> norm_num) rfl rfl rfl hs'
  have ht0 : t₀ = 0 ∧ c = 1 := by
    rw [hf.1, show barredSol.t = [0, 1 / 2, 1] from rfl] at ht
    simp at ht
    exact ⟨ht.1.symm, by linarith [ht.1, ht.2.2]⟩
  obtain ⟨rfl, rfl⟩ := ht0
  have hx : x = barred := by
    funext t
    rw [hdr.curve]
    norm_num
  subst hx
  have hpath : ∀ σ, (userOcp U exQ B exP).path σ = 1 + σ "u" * σ "u" := by
    intro σ
    simp [userOcp, exP, eval, Opt.exQ, penalties]
  obtain ⟨h1, h2⟩ := hmin
  have e : (0 : ℝ) + 1 * (1 - 0) = 1 := by norm_num
  rw [e] at h1 h2
  refine ⟨s', hs', hf.2, B, lam, hB, hret, h1, ?_, ?_⟩
  · exact lateAdmissible U B
  · intro z hz hb
    refine h2 _ z (barredConvex U fun t ht => ⟨?_, hb t ht⟩) hz
    have := hz.others t ht "eps" (by simp [Ocp.states, userOcp, exP, epsControls])
    rw [this]
    simp [barred]

end Beluga.E2E
