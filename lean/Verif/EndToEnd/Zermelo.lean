import Verif.EndToEnd.Current
import Verif.EndToEnd.Props

/-!
# Crossing a river in the least time (C99)

The problem of examples/Classic/ZermelosProblem/ZermelosProblem.py: a boat crosses a current that is given by a function of the user, and
must land near a place on the other bank.  Whatever beluga returns for it is the fastest crossing.
-/

namespace Beluga.E2E

open Beluga.Sym Beluga.Sym.Expr Beluga.Num Beluga.Map Beluga.Opt Beluga.Rep

/-- The problem (examples/Classic/ZermelosProblem/ZermelosProblem.py:16-44).  The function `drift_y` (lines 11-12) is given by `U`. -/
def zermelo : Prob := {
  ind := "t"
  states := [⟨"x", sym "V" * fn .cos (sym "theta")⟩, ⟨"y", sym "V" * fn .sin (sym "theta") + fn (.user "drift_y" 0) (sym "x")⟩]
  symmetries := [[1, 0], [0, 1]]
  controls := ["theta"]
  constants := ["V", "x_f", "y_f", "y_f_width", "epsilon"]
  costPath := 1
  initial := [{ expr := sym "x" }, { expr := sym "y" }, { expr := sym "t" }]
  terminal := [{ expr := sym "x" - sym "x_f" }, { expr := sym "y" - sym "y_f", lower := some (-sym "y_f_width"), upper := some (sym "y_f_width"), activator := some (sym "epsilon"), method := .utm }] }

/-! ### Specification -/

/-- What beluga adds to the cost for landing at the distance `z` from the place asked for, when `w` is allowed. -/
noncomputable def miss (ε w z : ℝ) : ℝ := ε * (1 / Real.cos (Real.pi / 2 * (z / w)) - 1)

/-! ### Lemmas -/

theorem zermelo_stated : Stated zermelo where
  costates := rfl
  coparameters := rfl
  parameters := rfl
  quads := rfl
  law := rfl
  acyclic := ⟨fun _ => 0, by decide⟩
  reg := ⟨rfl, by decide, by decide, by decide, by simp [zermelo], by decide, by decide⟩
  inside := by decide
  ends := by decide
  bounds := by simp [zermelo]
  flat := by simp [zermelo]
  names := by decide
  trig := by decide +kernel
  plain := by decide +kernel
  free := by decide +kernel
  ind := by decide +kernel

theorem zermelo_completes (U : Name → Nat → ℝ → ℝ) : Completes U zermelo id where
  off := fun _ _ _ => rfl
  quantities := by simp [zermelo]
  switches := by simp [zermelo]
  trig := by simp [TrigEnv, zermelo]

theorem zermelo_ham (U : Name → Nat → ℝ → ℝ) (B : ℝ → ℝ → ℝ → ℝ → ℝ) (l : Name → ℝ) (σ : Env) :
    (userOcp U id B zermelo).ham l σ = 1 + (l "x" * (σ "V" * Real.cos (σ "theta")) +
      l "y" * (σ "V" * Real.sin (σ "theta") + U "drift_y" 0 (σ "x"))) := by
  have e1 : ∀ v, (real U).fn .cos v = Real.cos v := fun _ => rfl
  have e2 : ∀ v, (real U).fn .sin v = Real.sin v := fun _ => rfl
  have e3 : ∀ v, (real U).fn (.user "drift_y" 0) v = U "drift_y" 0 v := fun _ => rfl
  simp [userOcp, zermelo, Ocp.ham, penalties, eval, e1, e2, e3]

theorem barrier_miss {B : ℝ → ℝ → ℝ → ℝ → ℝ} (hB : Barriers B) (ε w z : ℝ) : B ε (-w) w z = miss ε w z := by
  rw [hB.secant, miss, show Real.pi / 2 * (2 * z - w - -w) / (w - -w) = Real.pi / 2 * (z / w) by
    rw [show 2 * z - w - -w = 2 * z by ring, show w - -w = 2 * w by ring, mul_div_assoc, mul_div_mul_left _ _ two_ne_zero]]

theorem miss_convex {B : ℝ → ℝ → ℝ → ℝ → ℝ} (hB : Barriers B) {ε w : ℝ} (hε : 0 < ε) (hw : 0 < w) :
    ConvexOn ℝ (Set.Ioo (-w) w) (miss ε w) := by
  have := (hB.barrier ε (-w) w hε (by linarith)).convex
  rwa [show B ε (-w) w = miss ε w from funext (barrier_miss hB ε w)] at this

theorem zermelo_steers {U : Name → Nat → ℝ → ℝ} {B : ℝ → ℝ → ℝ → ℝ → ℝ} (hB : Barriers B) {a b : ℝ} (hab : a < b) {x : ℝ → Env}
    {lam : ℝ → Name → ℝ} {ν₀ ν₁ : Nat → ℝ} (h : Extremal (userOcp U id B zermelo) a b x lam ν₀ ν₁)
    (hθ : ∀ t ∈ Set.Icc a b, DifferentiableAt ℝ (fun τ => x τ "theta") t) (hV0 : x b "V" ≠ 0) :
    a = 0 ∧ Steers (x b "V") (U "drift_y" 0) (x b "x_f") b (lam b "y") (fun t => x t "x") (fun t => x t "y") (fun t => x t "theta")
      (fun t => lam t "x") ∧ HasDerivAt (miss (x b "epsilon") (x b "y_f_width")) (lam b "y") (x b "y" - x b "y_f") := by
  have e1 : ∀ v, (real U).fn .cos v = Real.cos v := fun _ => rfl
  have e2 : ∀ v, (real U).fn .sin v = Real.sin v := fun _ => rfl
  have e3 : ∀ v, (real U).fn (.user "drift_y" 0) v = U "drift_y" 0 v := fun _ => rfl
  have hb : b ∈ Set.Icc a b := ⟨hab.le, le_refl _⟩
  have hV : ∀ t ∈ Set.Icc a b, x t "V" = x b "V" := by
    intro t ht
    have k := h.fixed "V" (by simp [userOcp, zermelo])
    rw [k t ht, k b hb]
  have h0 := h.initial
  have h1 := h.terminal
  simp only [userOcp, zermelo, Con.twoSided, List.filter, Option.isSome, Bool.and_false, Bool.and_true, Bool.not_false, Bool.not_true,
    List.map_cons, List.map_nil, List.mem_cons, List.not_mem_nil, or_false, forall_eq_or_imp, forall_eq, id, eval_sub, eval] at h0 h1
  obtain ⟨ix, iy, it⟩ := h0
  have ha : a = 0 := by
    rw [← h.time a ⟨le_refl _, hab.le⟩]
    exact it
  refine ⟨ha, ?_⟩
  have m := h.motion
  simp only [userOcp, zermelo, List.map_cons, List.map_nil, List.mem_cons, List.not_mem_nil, or_false, forall_eq_or_imp, forall_eq, id, eval,
    e1, e2, e3] at m
  have hp : ∀ t ∈ Set.Icc a b, ∀ n d, HasPartial ((userOcp U id B zermelo).ham (lam t)) n d (x t) →
      HasDerivAt (fun z => 1 + (lam t "x" * (Function.update (x t) n z "V" * Real.cos (Function.update (x t) n z "theta")) +
        lam t "y" * (Function.update (x t) n z "V" * Real.sin (Function.update (x t) n z "theta") +
          U "drift_y" 0 (Function.update (x t) n z "x")))) d (x t n) := by
    intro t _ n d hd
    rw [HasPartial] at hd
    simpa only [zermelo_ham] using hd
  have adj : ∀ n, (n = "x" ∨ n = "y") → ∀ t ∈ Set.Icc a b, ∃ d, HasPartial ((userOcp U id B zermelo).ham (lam t)) n d (x t) ∧
      HasDerivAt (fun τ => lam τ n) (-d) t := by
    intro n hn t ht
    have hr : n ∈ (userOcp U id B zermelo).rates.map Prod.fst := by
      simpa [userOcp, zermelo] using hn
    obtain ⟨r, hr2, rfl⟩ := List.mem_map.1 hr
    exact h.adjoint r hr2 t ht
  have ly : ∀ t ∈ Set.Icc a b, HasDerivAt (fun τ => lam τ "y") 0 t := by
    intro t ht
    obtain ⟨d, hd, hl⟩ := adj "y" (by simp) t ht
    have k := hp t ht _ _ hd
    simp only [Function.update_apply, show ("V" : Name) ≠ "y" by decide, show ("theta" : Name) ≠ "y" by decide,
      show ("x" : Name) ≠ "y" by decide, if_false] at k
    have := k.unique (hasDerivAt_const _ _)
    rwa [this, neg_zero] at hl
  have lc : ∀ t ∈ Set.Icc a b, lam t "y" = lam b "y" := by
    intro t ht
    rw [const_on ly t ht, const_on ly b hb]
  have lx : ∀ t ∈ Set.Icc a b, ∃ D, HasDerivAt (fun z => lam b "y" * U "drift_y" 0 z) D (x t "x") ∧
      HasDerivAt (fun τ => lam τ "x") (-D) t := by
    intro t ht
    obtain ⟨d, hd, hl⟩ := adj "x" (by simp) t ht
    have k := hp t ht _ _ hd
    simp only [Function.update_apply, show ("V" : Name) ≠ "x" by decide, show ("theta" : Name) ≠ "x" by decide, if_false, if_true] at k
    refine ⟨d, ?_, hl⟩
    rw [← lc t ht]
    refine (k.sub_const (1 + (lam t "x" * (x t "V" * Real.cos (x t "theta")) + lam t "y" * (x t "V" * Real.sin (x t "theta"))))).congr_of_eventuallyEq
      (Filter.Eventually.of_forall fun z => ?_)
    simp only
    ring
  have st : ∀ t ∈ Set.Icc a b, x t "V" * (-(lam t "x" * Real.sin (x t "theta")) + lam b "y" * Real.cos (x t "theta")) = 0 := by
    intro t ht
    have k := hp t ht _ _ (h.stationary "theta" (by simp [userOcp, zermelo, epsControls]) t ht)
    simp only [Function.update_apply, show ("V" : Name) ≠ "theta" by decide, show ("x" : Name) ≠ "theta" by decide, if_false, if_true] at k
    have k2 : HasDerivAt (fun z => 1 + (lam t "x" * (x t "V" * Real.cos z) + lam t "y" * (x t "V" * Real.sin z + U "drift_y" 0 (x t "x"))))
        (lam t "x" * (x t "V" * -Real.sin (x t "theta")) + lam t "y" * (x t "V" * Real.cos (x t "theta"))) (x t "theta") :=
      ((((Real.hasDerivAt_cos _).const_mul _).const_mul _).add ((((Real.hasDerivAt_sin _).const_mul _).add_const _).const_mul _)).const_add _
    have := k.unique k2
    rw [lc t ht] at this
    linear_combination -this
  have hH : (userOcp U id B zermelo).ham (lam b) (x b) = 0 := by
    have k := h.stop_time
    rw [HasPartial] at k
    have e : (fun z => lagrange (userOcp U id B zermelo).costTerminal (userOcp U id B zermelo).terminal ν₁
        (Function.update (x b) (userOcp U id B zermelo).ind z)) = fun _ => lagrange (userOcp U id B zermelo).costTerminal
        (userOcp U id B zermelo).terminal ν₁ (x b) := by
      funext z
      simp [lagrange, userOcp, zermelo, Con.twoSided, penalties, penalty, eval]
    rw [e] at k
    have := k.unique (hasDerivAt_const _ _)
    linarith
  rw [zermelo_ham] at hH
  have hy : HasDerivAt (miss (x b "epsilon") (x b "y_f_width")) (lam b "y") (x b "y" - x b "y_f") := by
    have hr : "y" ∈ (userOcp U id B zermelo).rates.map Prod.fst := by simp [userOcp, zermelo]
    obtain ⟨r, hr2, hn⟩ := List.mem_map.1 hr
    have k := h.stop r hr2
    rw [hn, HasPartial] at k
    have e : (fun z => lagrange (userOcp U id B zermelo).costTerminal (userOcp U id B zermelo).terminal ν₁ (Function.update (x b) "y" z)) =
        fun z => miss (x b "epsilon") (x b "y_f_width") (z - x b "y_f") + ν₁ 0 * (x b "x" - x b "x_f") := by
      funext z
      rw [← barrier_miss hB]
      simp [lagrange, userOcp, zermelo, Con.twoSided, penalties, penalty, eval, eval_sub]
    rw [e] at k
    have k2 := k.sub_const (ν₁ 0 * (x b "x" - x b "x_f"))
    simp only [add_sub_cancel_right] at k2
    have k3 := HasDerivAt.comp_add_const (x b "y" - x b "y_f") (x b "y_f") (f := fun z => miss (x b "epsilon") (x b "y_f_width") (z - x b "y_f"))
      (f' := lam b "y") (by rw [sub_add_cancel]; exact k2)
    simpa only [add_sub_cancel_right] using k3
  subst ha
  refine ⟨⟨⟨ix, iy⟩, by simpa [sub_eq_zero] using h1, ?_, ?_, hθ, lx, ?_, by linarith⟩, hy⟩
  · intro t ht
    rw [← hV t ht]
    exact m.1 t ht
  · intro t ht
    rw [← hV t ht]
    exact m.2 t ht
  · intro t ht
    have := st t ht
    rw [hV t ht] at this
    exact (mul_eq_zero.1 this).resolve_left hV0

/-- A curve that satisfies the first-order conditions and always heads for the other bank is a crossing. -/
theorem Steers.crosses {V w T k : ℝ} {d x y θ lx : ℝ → ℝ} (h : Steers V d w T k x y θ lx) (hT : 0 ≤ T) (hV : 0 < V)
    (forward : ∀ t ∈ Set.Icc 0 T, 0 < Real.cos (θ t)) : Crosses V d w T x y θ := by
  have cx : ContinuousOn x (Set.Icc 0 T) := fun t ht => (h.east t ht).continuousAt.continuousWithinAt
  have mono : MonotoneOn x (Set.Icc 0 T) := by
    refine monotoneOn_of_deriv_nonneg (convex_Icc 0 T) cx ?_ ?_
    · rw [interior_Icc]
      exact fun s hs => (h.east s ⟨hs.1.le, hs.2.le⟩).differentiableAt.differentiableWithinAt
    · rw [interior_Icc]
      intro s hs
      rw [(h.east s ⟨hs.1.le, hs.2.le⟩).deriv]
      exact (mul_pos hV (forward s ⟨hs.1.le, hs.2.le⟩)).le
  refine ⟨h.start, h.stop, fun t ht => ⟨?_, ?_⟩, ⟨cx, fun t ht => (h.north t ht).continuousAt.continuousWithinAt⟩,
    fun t ht => ⟨h.east t ⟨ht.1.le, ht.2.le⟩, h.north t ⟨ht.1.le, ht.2.le⟩⟩⟩
  · rw [← h.start.1]
    exact mono ⟨le_refl _, hT⟩ ht ht.1
  · rw [← h.stop]
    exact mono ht ⟨hT, le_refl _⟩ ht.2

/-- Extremals of the river problem that always head for the other bank are the fastest crossings. -/
theorem zermelo_best {U : Name → Nat → ℝ → ℝ} {B : ℝ → ℝ → ℝ → ℝ → ℝ} (hB : Barriers B) {a b : ℝ} (hab : a < b) {x : ℝ → Env}
    {lam : ℝ → Name → ℝ} {ν₀ ν₁ : Nat → ℝ} (h : Extremal (userOcp U id B zermelo) a b x lam ν₀ ν₁) (hd : Continuous (U "drift_y" 0))
    (hθ : ∀ t ∈ Set.Icc a b, DifferentiableAt ℝ (fun τ => x τ "theta") t) (hV : 0 < x b "V") (hε : 0 < x b "epsilon")
    (forward : ∀ t ∈ Set.Icc a b, 0 < Real.cos (x t "theta"))
    (fast : ∀ t ∈ Set.Icc a b, 0 < x b "V" + U "drift_y" 0 (x t "x") * Real.sin (x t "theta"))
    (near : |x b "y" - x b "y_f"| < x b "y_f_width") :
    a = 0 ∧ Crosses (x b "V") (U "drift_y" 0) (x b "x_f") b (fun t => x t "x") (fun t => x t "y") (fun t => x t "theta") ∧
    (∃ k, HasDerivAt (miss (x b "epsilon") (x b "y_f_width")) k (x b "y" - x b "y_f") ∧ ∀ t ∈ Set.Icc 0 b,
      Real.sin (x t "theta") + k * (x b "V" + U "drift_y" 0 (x t "x") * Real.sin (x t "theta")) = 0) ∧
    ∀ T X Y Θ, 0 ≤ T → Crosses (x b "V") (U "drift_y" 0) (x b "x_f") T X Y Θ → |Y T - x b "y_f"| < x b "y_f_width" →
      b + miss (x b "epsilon") (x b "y_f_width") (x b "y" - x b "y_f") ≤
        T + miss (x b "epsilon") (x b "y_f_width") (Y T - x b "y_f") := by
  obtain ⟨ha, hs, hk⟩ := zermelo_steers hB hab h hθ hV.ne'
  subst ha
  refine ⟨rfl, hs.crosses hab.le hV forward, ⟨_, hk, fun t ht => ?_⟩, ?_⟩
  · obtain ⟨m, -, e1, e2⟩ := hs.heading hab.le t ht
    rw [e1]
    linear_combination Real.sin (x t "theta") * e2
  · intro T X Y Θ hT hX hY
    have k1 := hs.fastest hab.le hd hV forward fast hT hX
    have hw : 0 < x b "y_f_width" := (abs_nonneg _).trans_lt near
    have k2 := convex_tangent (miss_convex hB hε hw) (abs_lt.1 near) (abs_lt.1 hY) hk
    linarith

/-! ### Properties -/

/-- Every solution of the boundary value problem that beluga makes of Zermelo's problem, with any current, is the fastest crossing: no
crossing that lands within the allowed distance takes less time, up to what beluga adds to the cost for the distance.  The heading follows
the law of refraction: the sine of the heading is a constant times the speed over ground in the direction of the heading.

Assumed: the conditions of `C64_extremal_partial`; the solution always heads for the other bank and lands within the allowed distance, the
boat is faster than the current where it goes against it.  Missing: solutions that turn back. -/
theorem C99_solutions_partial {S : Sympy} (hL : LuSound S) {o : Opts} {p' : Prob} (hm : o.momentumShift = true) (hd : o.method ≠ .other)
    (hS : o.controlMethod = .algebraic → SolveSound S) (h : indirect S o zermelo = .ok p') :
    ∃ q, primal S zermelo = .ok q ∧ ∀ U a b ρ, a < b → Solves U p' a b ρ → Regular S U q p' a b ρ →
      (o.normalizeTime = true → 0 < ρ a "_delta_t") → Continuous (U "drift_y" 0) →
      (∀ t ∈ Set.Icc a b, DifferentiableAt ℝ (fun τ => ρ τ "theta") t) → 0 < ρ b "V" → 0 < ρ b "epsilon" →
      (∀ t ∈ Set.Icc a b, 0 < Real.cos (ρ t "theta")) →
      (∀ t ∈ Set.Icc a b, 0 < ρ b "V" + U "drift_y" 0 (ρ t "x") * Real.sin (ρ t "theta")) →
      |ρ b "y" - ρ b "y_f"| < ρ b "y_f_width" →
      (∃ c, 0 < c ∧ (∀ τ ∈ Set.Icc a b, ρ τ "t" = c * (τ - a)) ∧
        Crosses (ρ b "V") (U "drift_y" 0) (ρ b "x_f") (ρ b "t") (fun t => ρ (a + t / c) "x") (fun t => ρ (a + t / c) "y")
          (fun t => ρ (a + t / c) "theta")) ∧
      (∃ k, HasDerivAt (miss (ρ b "epsilon") (ρ b "y_f_width")) k (ρ b "y" - ρ b "y_f") ∧ ∀ t ∈ Set.Icc a b,
        Real.sin (ρ t "theta") + k * (ρ b "V" + U "drift_y" 0 (ρ t "x") * Real.sin (ρ t "theta")) = 0) ∧
      ∀ T X Y Θ, 0 ≤ T → Crosses (ρ b "V") (U "drift_y" 0) (ρ b "x_f") T X Y Θ → |Y T - ρ b "y_f"| < ρ b "y_f_width" →
        ρ b "t" + miss (ρ b "epsilon") (ρ b "y_f_width") (ρ b "y" - ρ b "y_f") ≤
          T + miss (ρ b "epsilon") (ρ b "y_f_width") (Y T - ρ b "y_f") := by
  obtain ⟨q, B, hq, hB, H⟩ := C64_extremal_partial hL zermelo_stated hm hd hS h
  refine ⟨q, hq, ?_⟩
  intro U a b ρ hab hs hreg hpos hcont hθ hV hε forward fast near
  obtain ⟨c, hc⟩ : ∃ c, c = (if o.normalizeTime then ρ a ("_delta_" ++ zermelo.ind) else 1) := ⟨_, rfl⟩
  have hc0 : 0 < c := by
    rw [hc]
    split
    · next hn => exact hpos hn
    · exact one_pos
  have he := H U id (zermelo_completes U) a b ρ hab.le hs hreg c hc hc0
  have back : ∀ τ, a + ((ρ a zermelo.ind + c * (τ - a)) - ρ a zermelo.ind) / c = τ := by
    intro τ
    have := hc0.ne'
    field_simp
    ring
  have inside : ∀ t ∈ Set.Icc (ρ a zermelo.ind) (ρ a zermelo.ind + c * (b - a)), a + (t - ρ a zermelo.ind) / c ∈ Set.Icc a b := by
    intro t ht
    constructor
    · have := div_nonneg (sub_nonneg.2 ht.1) hc0.le
      linarith
    · have : (t - ρ a zermelo.ind) / c ≤ b - a := by
        rw [div_le_iff₀ hc0]
        linarith [ht.2, mul_comm c (b - a)]
      linarith
  have rows : ∀ τ ∈ Set.Icc a b, ρ a zermelo.ind + c * (τ - a) ∈ Set.Icc (ρ a zermelo.ind) (ρ a zermelo.ind + c * (b - a)) := by
    intro τ hτ
    have h1 := mul_nonneg hc0.le (sub_nonneg.2 hτ.1)
    have h2 := mul_le_mul_of_nonneg_left (sub_le_sub_right hτ.2 a) hc0.le
    exact ⟨by linarith, by linarith⟩
  have time : ∀ τ ∈ Set.Icc a b, ρ τ "t" = ρ a zermelo.ind + c * (τ - a) := by
    intro τ hτ
    have e := he.time _ (rows τ hτ)
    rw [back] at e
    exact e
  have best := zermelo_best hB (by nlinarith [mul_pos hc0 (sub_pos.2 hab)]) he hcont (by
    intro t ht
    exact DifferentiableAt.comp (g := fun τ => ρ τ "theta") (f := fun t => a + (t - ρ a zermelo.ind) / c) t (hθ _ (inside t ht))
      (by fun_prop)) (by rw [back]; exact hV) (by rw [back]; exact hε) (fun t ht => forward _ (inside t ht))
    (by rw [back]; exact fun t ht => fast _ (inside t ht)) (by rw [back]; exact near)
  rw [back] at best
  obtain ⟨k0, k1, ⟨k, k2, k3⟩, k4⟩ := best
  rw [← time b ⟨hab.le, le_refl _⟩] at k1 k3 k4
  simp only [k0, sub_zero] at k1
  refine ⟨⟨c, hc0, fun τ hτ => by rw [time τ hτ, k0, zero_add], k1⟩, ⟨k, k2, fun τ hτ => ?_⟩, k4⟩
  have e := k3 (ρ a zermelo.ind + c * (τ - a)) (by
    have := rows τ hτ
    rw [time b ⟨hab.le, le_refl _⟩]
    rwa [k0] at this ⊢)
  rwa [back] at e

/-- Whatever beluga returns for Zermelo's problem is the fastest crossing: if the numerical solution solves the boundary value problem, the
rows of the returned tables are points of one crossing at the returned times, and no crossing that lands within the allowed distance takes
less time, up to what beluga adds to the cost for the distance.  Assumed and missing: as for `C99_solutions_partial`. -/
theorem C99_returned_partial {S : Sympy} (hL : LuSound S) {o : Opts} {p' : Prob} (hm : o.momentumShift = true) (hd : o.method ≠ .other)
    (hS : o.controlMethod = .algebraic → SolveSound S) (h : indirect S o zermelo = .ok p') :
    ∃ q, primal S zermelo = .ok q ∧ ∀ U (O : TrigOps ℝ) rule, O.sin = Real.sin →
      ∀ a b y pr pc k ρ, a < b → NumSol U p' a b y pr pc k → Reads U p' a b y pr pc k ρ → Regular S U q p' a b ρ →
      (∀ x ∈ pr, 0 < x) → Continuous (U "drift_y" 0) → (∀ t ∈ Set.Icc a b, DifferentiableAt ℝ (fun τ => ρ τ "theta") t) →
      0 < ρ b "V" → 0 < ρ b "epsilon" → (∀ t ∈ Set.Icc a b, 0 < Real.cos (ρ t "theta")) →
      (∀ t ∈ Set.Icc a b, 0 < ρ b "V" + U "drift_y" 0 (ρ t "x") * Real.sin (ρ t "theta")) →
      |ρ b "y" - ρ b "y_f"| < ρ b "y_f_width" →
      ∀ s s' : Sol ℝ, s.t ≠ [] → (∀ τ ∈ s.t, τ ∈ Set.Icc a b) → s.y = .rows p'.states.length (s.t.map y) → s.dyn = pr →
        s.const = k → invIndirect S O rule (real U) o zermelo s = .ok s' →
      ∃ (T : ℝ) (X Y Θ : ℝ → ℝ), Crosses (ρ b "V") (U "drift_y" 0) (ρ b "x_f") T X Y Θ ∧
        s'.y = .rows 2 (s'.t.map fun t => [X t, Y t]) ∧ s'.u = .rows 1 (s'.t.map fun t => [Θ t]) ∧
        (∀ t ∈ s'.t, t ∈ Set.Icc 0 T) ∧ (b ∈ s.t → T ∈ s'.t) ∧ |Y T - ρ b "y_f"| < ρ b "y_f_width" ∧
        ∀ T' X' Y' Θ', 0 ≤ T' → Crosses (ρ b "V") (U "drift_y" 0) (ρ b "x_f") T' X' Y' Θ' → |Y' T' - ρ b "y_f"| < ρ b "y_f_width" →
          T + miss (ρ b "epsilon") (ρ b "y_f_width") (Y T - ρ b "y_f") ≤
            T' + miss (ρ b "epsilon") (ρ b "y_f_width") (Y' T' - ρ b "y_f") := by
  obtain ⟨q, B, hq, hB, H⟩ := C73_returned_partial hL zermelo_stated hm hd hS h
  refine ⟨q, hq, ?_⟩
  intro U O rule hO a b y pr pc k ρ hab hnum hread hreg hpr hcont hθ hV hε forward fast near s s' hne hgrid hy hdyn hconst hinv
  obtain ⟨t₀, c, x, lam, ν₀, ν₁, hc0, he, ht, hret, -, -, -, -, hdr⟩ := H U id (zermelo_completes U) O rule hO a b y pr pc k ρ hab.le hnum
    hread hreg hpr s s' hne hgrid hy hdyn hconst hinv
  have stop : x (t₀ + c * (b - a)) = ρ b := by
    rw [hdr.curve]
    congr 1
    have := hc0.ne'
    field_simp
    ring
  have inside : ∀ t ∈ Set.Icc t₀ (t₀ + c * (b - a)), a + (t - t₀) / c ∈ Set.Icc a b := by
    intro t ht
    constructor
    · have := div_nonneg (sub_nonneg.2 ht.1) hc0.le
      linarith
    · have : (t - t₀) / c ≤ b - a := by
        rw [div_le_iff₀ hc0]
        linarith [ht.2, mul_comm c (b - a)]
      linarith
  have hlt : t₀ < t₀ + c * (b - a) := by nlinarith [mul_pos hc0 (sub_pos.2 hab)]
  have best := zermelo_best hB hlt he hcont (by
    intro t ht
    have e : (fun τ => x τ "theta") = fun τ => ρ (a + (τ - t₀) / c) "theta" := by
      funext τ
      rw [hdr.curve]
    rw [e]
    exact DifferentiableAt.comp (g := fun τ => ρ τ "theta") (f := fun t => a + (t - t₀) / c) t (hθ _ (inside t ht))
      (by fun_prop)) (by rw [stop]; exact hV) (by rw [stop]; exact hε)
    (fun t ht => by rw [hdr.curve]; exact forward _ (inside t ht))
    (by
      rw [stop]
      intro t ht
      rw [hdr.curve]
      exact fast _ (inside t ht)) (by rw [stop]; exact near)
  rw [stop] at best
  obtain ⟨k0, k1, -, k4⟩ := best
  have stop2 : x (t₀ + c * (b - a)) "y" = ρ b "y" := by rw [stop]
  refine ⟨t₀ + c * (b - a), fun t => x t "x", fun t => x t "y", fun t => x t "theta", k1, hret.states, hret.controls, ?_, ?_, ?_, ?_⟩
  · intro t h1
    rw [ht] at h1
    obtain ⟨τ, hτ, rfl⟩ := List.mem_map.1 h1
    have h2 := hgrid τ hτ
    have h3 := mul_nonneg hc0.le (sub_nonneg.2 h2.1)
    have h4 := mul_le_mul_of_nonneg_left (sub_le_sub_right h2.2 a) hc0.le
    exact ⟨by linarith, by linarith⟩
  · intro hb
    rw [ht]
    exact List.mem_map_of_mem (f := fun τ => t₀ + c * (τ - a)) hb
  · simp only [stop2]
    exact near
  · simp only [stop2]
    exact k4

end Beluga.E2E
