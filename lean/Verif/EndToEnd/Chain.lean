import Verif.EndToEnd.Catenary
import Verif.EndToEnd.BrachistochroneBack

/-!
# The example of the hanging chain (C97)

The problem of examples/Classic/HangingChain/HangingChain.py.  Whatever beluga returns for it is a catenary.
-/

namespace Beluga.E2E

open Beluga.Sym Beluga.Sym.Expr Beluga.Num Beluga.Map Beluga.Opt Beluga.Rep

/-- The problem (examples/Classic/HangingChain/HangingChain.py:6-30). -/
def chain : Prob := {
  ind := "s"
  states := [⟨"x", fn .cos (sym "theta")⟩, ⟨"y", fn .sin (sym "theta")⟩]
  controls := ["theta"]
  constants := ["x_0", "y_0", "s_0", "x_f", "y_f", "s_f"]
  costPath := sym "y"
  initial := [{ expr := sym "x" - sym "x_0" }, { expr := sym "y" - sym "y_0" }, { expr := sym "s" }]
  terminal := [{ expr := sym "x" - sym "x_f" }, { expr := sym "y" - sym "y_f" }, { expr := sym "s" - sym "s_f" }] }

theorem chain_stated : Stated chain where
  costates := rfl
  coparameters := rfl
  parameters := rfl
  quads := rfl
  law := rfl
  acyclic := ⟨fun _ => 0, by decide⟩
  reg := ⟨rfl, by decide, by decide, by decide, by simp [chain], by decide, by decide⟩
  inside := by decide
  ends := by decide
  bounds := by simp [chain]
  flat := by simp [chain]
  names := by decide
  trig := by decide +kernel
  plain := by decide +kernel
  free := by decide +kernel
  ind := by decide +kernel

theorem chain_completes (U : Name → Nat → ℝ → ℝ) : Completes U chain id where
  off := fun _ _ _ => rfl
  quantities := by simp [chain]
  switches := by simp [chain]
  trig := by simp [TrigEnv, chain]

theorem chain_ham (U : Name → Nat → ℝ → ℝ) (B : ℝ → ℝ → ℝ → ℝ → ℝ) (l : Name → ℝ) (σ : Env) :
    (userOcp U id B chain).ham l σ = σ "y" + (l "x" * Real.cos (σ "theta") + l "y" * Real.sin (σ "theta")) := by
  have e1 : ∀ v, (real U).fn .cos v = Real.cos v := fun _ => rfl
  have e2 : ∀ v, (real U).fn .sin v = Real.sin v := fun _ => rfl
  simp [userOcp, chain, Ocp.ham, penalties, eval, e1, e2]

/-- A curve is a catenary from the first to the last given point, of the given length: it is a chain, it hangs (`σ = 1`) or stands as an
arch (`σ = -1`), and it is the only lowest, or the only highest, of all chains of this length between these points. -/
structure IsCatenary (l x0 y0 x1 y1 σ : ℝ) (x y θ : ℝ → ℝ) : Prop where
  chained : Chained l x0 y0 x1 y1 x y θ
  graph : ∃ k s₁ x₁ y₁ δ, 0 < k ∧ (δ = 1 ∨ δ = -1) ∧ ∀ s ∈ Set.Icc 0 l, (x s, y s) = catenary k s₁ x₁ y₁ δ σ s
  lowest : σ = 1 → Lowest l x0 y0 x1 y1 x y
  highest : σ = -1 → Highest l x0 y0 x1 y1 x y

/-- Extremals of the problem of the hanging chain are catenaries. -/
theorem chain_catenary {U : Name → Nat → ℝ → ℝ} {B : ℝ → ℝ → ℝ → ℝ → ℝ} {a b : ℝ} (hab : a < b) {x : ℝ → Env} {lam : ℝ → Name → ℝ}
    {ν₀ ν₁ : Nat → ℝ} (h : Extremal (userOcp U id B chain) a b x lam ν₀ ν₁)
    (hθ : ContinuousOn (fun τ => x τ "theta") (Set.Icc a b)) (hx : x a "x_0" ≠ x b "x_f") :
    a = 0 ∧ b = x b "s_f" ∧ ∃ σ, (σ = 1 ∨ σ = -1) ∧ IsCatenary b (x a "x_0") (x a "y_0") (x b "x_f") (x b "y_f") σ
      (fun s => x s "x") (fun s => x s "y") (fun s => x s "theta") ∧
      ∀ t ∈ Set.Icc a b, lam t "x" ≠ 0 ∧ lam t "x" * Real.sin (x t "theta") = lam t "y" * Real.cos (x t "theta") ∧
        lam t "x" * Real.cos (x t "theta") + lam t "y" * Real.sin (x t "theta") = -(σ * √(lam t "x" ^ 2 + lam t "y" ^ 2)) := by
  have e1 : ∀ v, (real U).fn .cos v = Real.cos v := fun _ => rfl
  have e2 : ∀ v, (real U).fn .sin v = Real.sin v := fun _ => rfl
  have ha' : a ∈ Set.Icc a b := ⟨le_refl _, hab.le⟩
  have hb' : b ∈ Set.Icc a b := ⟨hab.le, le_refl _⟩
  have h0 := h.initial
  have h1 := h.terminal
  simp only [userOcp, chain, Con.twoSided, List.filter, Option.isSome, Bool.and_false, Bool.not_false, List.map_cons, List.map_nil,
    List.mem_cons, List.not_mem_nil, or_false, forall_eq_or_imp, forall_eq, id, eval_sub, eval] at h0 h1
  obtain ⟨ix, iy, it⟩ := h0
  obtain ⟨jx, jy, jt⟩ := h1
  have ha : a = 0 := by
    rw [← h.time a ha']
    exact it
  have hb : b = x b "s_f" := by
    have k : x b "s" = b := h.time b hb'
    linarith
  refine ⟨ha, hb, ?_⟩
  have m := h.motion
  simp only [userOcp, chain, List.map_cons, List.map_nil, List.mem_cons, List.not_mem_nil, or_false, forall_eq_or_imp, forall_eq, id, eval, e1,
    e2] at m
  have hp : ∀ t ∈ Set.Icc a b, ∀ n d, HasPartial ((userOcp U id B chain).ham (lam t)) n d (x t) →
      HasDerivAt (fun z => Function.update (x t) n z "y" + (lam t "x" * Real.cos (Function.update (x t) n z "theta") +
        lam t "y" * Real.sin (Function.update (x t) n z "theta"))) d (x t n) := by
    intro t _ n d hd
    rw [HasPartial] at hd
    simpa only [chain_ham] using hd
  have adj : ∀ n, (n = "x" ∨ n = "y") → ∀ t ∈ Set.Icc a b, ∃ d, HasPartial ((userOcp U id B chain).ham (lam t)) n d (x t) ∧
      HasDerivAt (fun τ => lam τ n) (-d) t := by
    intro n hn t ht
    have hr : n ∈ (userOcp U id B chain).rates.map Prod.fst := by
      simpa [userOcp, chain] using hn
    obtain ⟨r, hr2, rfl⟩ := List.mem_map.1 hr
    exact h.adjoint r hr2 t ht
  have lx : ∀ t ∈ Set.Icc a b, HasDerivAt (fun τ => lam τ "x") 0 t := by
    intro t ht
    obtain ⟨d, hd, hl⟩ := adj "x" (by simp) t ht
    have k := hp t ht _ _ hd
    simp only [Function.update_apply, show ("y" : Name) ≠ "x" by decide, show ("theta" : Name) ≠ "x" by decide, if_false] at k
    have := k.unique (hasDerivAt_const _ _)
    rwa [this, neg_zero] at hl
  have ly : ∀ t ∈ Set.Icc a b, HasDerivAt (fun τ => lam τ "y") (-1) t := by
    intro t ht
    obtain ⟨d, hd, hl⟩ := adj "y" (by simp) t ht
    have k := hp t ht _ _ hd
    simp only [Function.update_apply, show ("theta" : Name) ≠ "y" by decide, if_false, if_true] at k
    have := k.unique ((hasDerivAt_id (x t "y")).add_const _)
    rwa [this] at hl
  have cx : ∀ t ∈ Set.Icc a b, lam t "x" = lam a "x" := const_on lx
  have cy : ∀ t ∈ Set.Icc a b, lam t "y" = lam a "y" - (t - a) := by
    intro t ht
    have k := const_on (f := fun τ => lam τ "y" + τ) (fun τ hτ => ((ly τ hτ).add (hasDerivAt_id τ)).congr_deriv (by simp)) t ht
    linarith
  obtain ⟨c, hc⟩ : ∃ c, c = lam a "y" + a := ⟨_, rfl⟩
  have st : ∀ t ∈ Set.Icc a b, -(lam a "x" * Real.sin (x t "theta")) + (c - t) * Real.cos (x t "theta") = 0 := by
    intro t ht
    have k := hp t ht _ _ (h.stationary "theta" (by simp [userOcp, chain, epsControls]) t ht)
    simp only [Function.update_apply, show ("y" : Name) ≠ "theta" by decide, if_false, if_true] at k
    have k2 : HasDerivAt (fun z => x t "y" + (lam t "x" * Real.cos z + lam t "y" * Real.sin z))
        (lam t "x" * -Real.sin (x t "theta") + lam t "y" * Real.cos (x t "theta")) (x t "theta") :=
      (((Real.hasDerivAt_cos _).const_mul _).add ((Real.hasDerivAt_sin _).const_mul _)).const_add _
    have := k.unique k2
    rw [cx t ht, cy t ht] at this
    rw [hc]
    linear_combination -this
  have hL := costate_ne hab m.1 hθ st (by
    intro e
    exact hx (by linarith))
  obtain ⟨e, he, H⟩ := direction_of_conditions hL hθ st
  obtain ⟨x₁, y₁, G⟩ := catenary_of_conditions m.1 m.2 hL (fun t ht => (H t ht).2)
  have ch : Chained b (x a "x_0") (x a "y_0") (x b "x_f") (x b "y_f") (fun s => x s "x") (fun s => x s "y") (fun s => x s "theta") := by
    rw [ha] at m ix iy ⊢
    refine ⟨⟨by linarith, by linarith⟩, ⟨by linarith, by linarith⟩, ⟨fun t ht => (m.1 t ht).continuousAt.continuousWithinAt,
      fun t ht => (m.2 t ht).continuousAt.continuousWithinAt⟩, fun t ht => ⟨m.1 t ⟨ht.1.le, ht.2.le⟩, m.2 t ⟨ht.1.le, ht.2.le⟩⟩⟩
  have hb0 : 0 < b := by linarith
  have into : ∀ s ∈ Set.Ioo 0 b, s ∈ Set.Icc a b := fun s hs => ⟨by rw [ha]; exact hs.1.le, hs.2.le⟩
  refine ⟨-e, ?_, ⟨ch, ?_, ?_, ?_⟩, fun t ht => ?_⟩
  · rcases he with rfl | rfl <;> simp
  · refine ⟨|lam a "x"|, c, x₁, y₁, e * (lam a "x" / |lam a "x"|), abs_pos.2 hL, ?_, fun s hs => G s (by rw [ha]; exact hs)⟩
    rcases abs_cases (lam a "x") with ⟨k, -⟩ | ⟨k, -⟩ <;> rcases he with rfl | rfl <;> rw [k] <;> simp [hL]
  · intro hσ
    obtain rfl : e = -1 := by linarith
    exact lowest_of_norm hb0 hL ch fun s hs => (H s (into s hs)).1
  · intro hσ
    obtain rfl : e = 1 := by linarith
    exact highest_of_norm hb0 hL ch fun s hs => (H s (into s hs)).1
  · have k1 := st t ht
    have k2 := (H t ht).1
    rw [cx t ht, cy t ht, show lam a "y" - (t - a) = c - t by rw [hc]; ring]
    exact ⟨hL, by linarith, by linarith⟩

/-- The same point with the opposite direction. -/
noncomputable def opposite (σ : Env) : Env := Function.update σ "theta" (σ "theta" + Real.pi)

/-- A `LUsolve` by Cramer's rule; nothing else of sympy is used. -/
def chainS : Sympy := ⟨fun _ _ => [], cramerLu, fun _ _ => 0⟩

def chainQ : Prob := match primal chainS chain with
  | .ok p => p
  | .error _ => {}

/-- The first stage does not need sympy. -/
theorem chainQ_ok (S : Sympy) : primal S chain = .ok chainQ := by
  have e : primal S chain = primal chainS chain := rfl
  have : (match primal chainS chain with | .ok _ => true | .error _ => false) = true := by decide +kernel
  rw [e, chainQ]
  cases h : primal chainS chain with
  | ok p => rfl
  | error e => rw [h] at this; cases this

theorem chainQ_facts : entire chainQ.costPath = true ∧ (∀ d ∈ chainQ.states, entire d.eom = true) ∧ entire chainQ.costInitial = true ∧
    entire chainQ.costTerminal = true ∧ (∀ c ∈ chainQ.initial ++ chainQ.terminal, entire c.expr = true) ∧ chainQ.controls = ["theta"] ∧
    entire ((hexpr chainQ).diff "theta") = true := by decide +kernel

/-! ### Properties -/

/-- Every solution of the boundary value problem that beluga makes of the hanging chain is a catenary with the given ends and the given
length: for every method, every way to treat the controls, with and without normalised time.  It is either the lowest of all chains
with these ends and this length, or the highest.

Assumed: the conditions of `C64_extremal_partial`, a continuous direction, ends that are not one above the other.

Missing from the full property: that it is the lowest; see `C97_violated`. -/
theorem C97_solutions_partial {S : Sympy} (hL : LuSound S) {o : Opts} {p' : Prob} (hm : o.momentumShift = true) (hd : o.method ≠ .other)
    (hS : o.controlMethod = .algebraic → SolveSound S) (h : indirect S o chain = .ok p') :
    ∃ q, primal S chain = .ok q ∧ ∀ U a b ρ, a < b → Solves U p' a b ρ → Regular S U q p' a b ρ →
      (o.normalizeTime = true → 0 < ρ a "_delta_s") → ContinuousOn (fun τ => ρ τ "theta") (Set.Icc a b) →
      ρ a "x_0" ≠ ρ b "x_f" →
      ∃ σ X Y Θ, (σ = 1 ∨ σ = -1) ∧ IsCatenary (ρ b "s_f") (ρ a "x_0") (ρ a "y_0") (ρ b "x_f") (ρ b "y_f") σ X Y Θ ∧
        ∀ τ ∈ Set.Icc a b, ρ τ "s" ∈ Set.Icc 0 (ρ b "s_f") ∧ ρ τ "x" = X (ρ τ "s") ∧ ρ τ "y" = Y (ρ τ "s") ∧
          ρ τ "theta" = Θ (ρ τ "s") := by
  obtain ⟨q, B, hq, -, H⟩ := C64_extremal_partial hL chain_stated hm hd hS h
  refine ⟨q, hq, ?_⟩
  intro U a b ρ hab hs hreg hpos hθ hx
  obtain ⟨c, hc⟩ : ∃ c, c = (if o.normalizeTime then ρ a ("_delta_" ++ chain.ind) else 1) := ⟨_, rfl⟩
  have hc0 : 0 < c := by
    rw [hc]
    split
    · next hn => exact hpos hn
    · exact one_pos
  have he := H U id (chain_completes U) a b ρ hab.le hs hreg c hc hc0
  have back : ∀ τ, a + ((ρ a chain.ind + c * (τ - a)) - ρ a chain.ind) / c = τ := by
    intro τ
    have := hc0.ne'
    field_simp
    ring
  have inside : ∀ t ∈ Set.Icc (ρ a chain.ind) (ρ a chain.ind + c * (b - a)), a + (t - ρ a chain.ind) / c ∈ Set.Icc a b := by
    intro t ht
    constructor
    · have := div_nonneg (sub_nonneg.2 ht.1) hc0.le
      linarith
    · have : (t - ρ a chain.ind) / c ≤ b - a := by
        rw [div_le_iff₀ hc0]
        linarith [ht.2, mul_comm c (b - a)]
      linarith
  have start : a + (ρ a chain.ind - ρ a chain.ind) / c = a := by simp
  obtain ⟨z0, zb, σ, hσ, hcat, -⟩ := chain_catenary (by nlinarith [mul_pos hc0 (sub_pos.2 hab)]) he
    (ContinuousOn.comp (g := fun τ => ρ τ "theta") (f := fun t => a + (t - ρ a chain.ind) / c) hθ (by fun_prop) inside)
    (by simp only [start, back]; exact hx)
  simp only [start, back] at zb hcat
  rw [zb] at hcat
  refine ⟨σ, _, _, _, hσ, hcat, ?_⟩
  intro τ hτ
  have ht : ρ a chain.ind + c * (τ - a) ∈ Set.Icc (ρ a chain.ind) (ρ a chain.ind + c * (b - a)) := by
    have h1 := mul_nonneg hc0.le (sub_nonneg.2 hτ.1)
    have h2 := mul_le_mul_of_nonneg_left (sub_le_sub_right hτ.2 a) hc0.le
    exact ⟨by linarith, by linarith⟩
  have e := he.time _ ht
  rw [back] at e
  have e : ρ τ "s" = ρ a chain.ind + c * (τ - a) := e
  rw [e]
  refine ⟨?_, ?_, ?_, ?_⟩
  · rw [zb, z0] at ht
    rw [z0]
    exact ht
  all_goals simp only [back]

/-- Whatever beluga returns for the hanging chain is a catenary: if the numerical solution solves the boundary value problem, all rows
of the returned tables are the points of one catenary with the given ends and the given length, at the returned arc lengths, and its
directions there.  It is either the lowest of all chains with these ends and this length, or the highest.  It is the lowest with the
algebraic control law, if sympy's `solve` finds also the direction that is opposite to the returned one somewhere.

Missing from the full property: that it is the lowest with every treatment of the control; see `C97_violated`. -/
theorem C97_returned_partial {S : Sympy} (hL : LuSound S) {o : Opts} {p' : Prob} (hm : o.momentumShift = true) (hd : o.method ≠ .other)
    (hS : o.controlMethod = .algebraic → SolveSound S) (h : indirect S o chain = .ok p') :
    ∃ q, primal S chain = .ok q ∧ ∀ U (O : TrigOps ℝ) rule, O.sin = Real.sin →
      ∀ a b y pr pc k ρ, a < b → NumSol U p' a b y pr pc k → Reads U p' a b y pr pc k ρ → Regular S U q p' a b ρ →
      (∀ x ∈ pr, 0 < x) → ContinuousOn (fun τ => ρ τ "theta") (Set.Icc a b) → ρ a "x_0" ≠ ρ b "x_f" →
      ∀ s s' : Sol ℝ, s.t ≠ [] → (∀ τ ∈ s.t, τ ∈ Set.Icc a b) → s.y = .rows p'.states.length (s.t.map y) → s.dyn = pr →
        s.const = k → invIndirect S O rule (real U) o chain s = .ok s' →
      ∃ σ X Y Θ, (σ = 1 ∨ σ = -1) ∧ IsCatenary (ρ b "s_f") (ρ a "x_0") (ρ a "y_0") (ρ b "x_f") (ρ b "y_f") σ X Y Θ ∧
        (∀ t ∈ s'.t, t ∈ Set.Icc 0 (ρ b "s_f")) ∧
        s'.y = .rows 2 (s'.t.map fun t => [X t, Y t]) ∧ s'.u = .rows 1 (s'.t.map fun t => [Θ t]) ∧
        (a ∈ s.t → 0 ∈ s'.t) ∧ (b ∈ s.t → ρ b "s_f" ∈ s'.t) ∧
        (o.controlMethod = .algebraic → (∃ τ ∈ Set.Icc a b, SolveFinds S U (q.controls.map fun u => (hexpr q).diff u) q.controls
          (opposite (ρ τ))) → σ = 1) := by
  obtain ⟨q, B, hq, -, H⟩ := C73_returned_partial hL chain_stated hm hd hS h
  refine ⟨q, hq, ?_⟩
  intro U O rule hO a b y pr pc k ρ hab hnum hread hreg hpr hθ hx s s' hne hgrid hy hdyn hconst hinv
  obtain ⟨t₀, c, x, lam, ν₀, ν₁, hc0, he, ht, hret, -, -, -, hleast, hdr⟩ := H U id (chain_completes U) O rule hO a b y pr pc k ρ hab.le hnum
    hread hreg hpr s s' hne hgrid hy hdyn hconst hinv
  have start : x t₀ = ρ a := by rw [hdr.curve]; simp
  have stop : x (t₀ + c * (b - a)) = ρ b := by
    rw [hdr.curve]
    congr 1
    have := hc0.ne'
    field_simp
    ring
  have inside : ∀ t ∈ Set.Icc t₀ (t₀ + c * (b - a)), a + (t - t₀) / c ∈ Set.Icc a b := by
    intro t ht
    constructor
    · have := div_nonneg (sub_nonneg.2 ht.1) hc0.le
      linarith
    · have : (t - t₀) / c ≤ b - a := by
        rw [div_le_iff₀ hc0]
        linarith [ht.2, mul_comm c (b - a)]
      linarith
  have hlt : t₀ < t₀ + c * (b - a) := by nlinarith [mul_pos hc0 (sub_pos.2 hab)]
  obtain ⟨z0, zb, σ, hσ, hcat, hnorm⟩ := chain_catenary hlt he (by
    have e : (fun τ => x τ "theta") = fun τ => ρ (a + (τ - t₀) / c) "theta" := by
      funext τ
      rw [hdr.curve]
    rw [e]
    exact ContinuousOn.comp (g := fun τ => ρ τ "theta") (f := fun t => a + (t - t₀) / c) hθ (by fun_prop) inside)
    (by rw [start, stop]; exact hx)
  rw [start, stop] at hcat
  rw [stop] at zb
  rw [zb] at hcat
  refine ⟨σ, _, _, _, hσ, hcat, ?_, ?_, ?_, ?_, ?_, ?_⟩
  · intro t h1
    rw [ht] at h1
    obtain ⟨τ, hτ, rfl⟩ := List.mem_map.1 h1
    have h2 := hgrid τ hτ
    have h3 := mul_nonneg hc0.le (sub_nonneg.2 h2.1)
    have h4 := mul_le_mul_of_nonneg_left (sub_le_sub_right h2.2 a) hc0.le
    exact ⟨by linarith, by linarith⟩
  · rw [hret.states]
    rfl
  · rw [hret.controls]
    rfl
  · intro h1
    rw [ht]
    exact List.mem_map.2 ⟨a, h1, by rw [z0]; simp⟩
  · intro h1
    rw [ht]
    exact List.mem_map.2 ⟨b, h1, zb⟩
  · intro ha ⟨τ, hτ, hf⟩
    obtain rfl : chainQ = q := Except.ok.inj ((chainQ_ok S).symm.trans hq)
    have hin : t₀ + c * (τ - a) ∈ Set.Icc t₀ (t₀ + c * (b - a)) := by
      have h3 := mul_nonneg hc0.le (sub_nonneg.2 hτ.1)
      have h4 := mul_le_mul_of_nonneg_left (sub_le_sub_right hτ.2 a) hc0.le
      exact ⟨by linarith, by linarith⟩
    obtain ⟨n1, n2, n3⟩ := hnorm _ hin
    have ex : x (t₀ + c * (τ - a)) = ρ τ := by
      rw [hdr.curve]
      congr 1
      have := hc0.ne'
      field_simp
      ring
    have k := hleast ha _ hin (opposite (ρ τ)) (by
        intro n hn
        have hn : n ≠ "theta" := by simpa [userOcp, chain, epsControls] using hn
        rw [ex, opposite, Function.update_of_ne hn]) (by
        intro u hu
        have hu : u = "theta" := by simpa [userOcp, chain, epsControls] using hu
        subst hu
        simp only [HasPartial, chain_ham, opposite, Function.update_apply, String.reduceEq, if_false, if_true]
        refine ((((Real.hasDerivAt_cos _).const_mul _).add ((Real.hasDerivAt_sin _).const_mul _)).const_add _).congr_deriv ?_
        rw [Real.sin_add_pi, Real.cos_add_pi, ← ex]
        linarith) ⟨smooth_of_entire chainQ_facts.1, fun d hd => smooth_of_entire (chainQ_facts.2.1 d hd)⟩ hf
    simp only [chain_ham, opposite, Function.update_apply, String.reduceEq, if_false, if_true, Real.sin_add_pi, Real.cos_add_pi] at k
    rw [← ex] at k
    have hpos : 0 < √(lam (t₀ + c * (τ - a)) "x" ^ 2 + lam (t₀ + c * (τ - a)) "y" ^ 2) := Real.sqrt_pos.2 (by
      have := sq_pos_of_ne_zero n1
      positivity)
    rcases hσ with hσ | hσ
    · exact hσ
    · rw [hσ] at n3
      linarith

end Beluga.E2E
