import Verif.EndToEnd.Cycloid
import Verif.EndToEnd.Props

/-!
# The first example of the documentation: curves of fastest descent (C94)

The problem of examples/Classic/Brachistochrone/Brachistochrone.py, also in the documentation.  Whatever beluga returns for it is a
cycloid.
-/

namespace Beluga.E2E

open Beluga.Sym Beluga.Sym.Expr Beluga.Num Beluga.Map Beluga.Opt Beluga.Rep

/-- The problem (examples/Classic/Brachistochrone/Brachistochrone.py:6-35).  The example also asks for a reduction by its constants of
motion; this is not done here (see C68). -/
def brach : Prob := {
  ind := "t"
  states := [⟨"x", sym "v" * fn .cos (sym "theta")⟩, ⟨"y", sym "v" * fn .sin (sym "theta")⟩, ⟨"v", sym "g" * fn .sin (sym "theta")⟩]
  symmetries := [[1, 0, 0], [0, 1, 0]]
  controls := ["theta"]
  constants := ["g", "x_f", "y_f"]
  costPath := 1
  initial := [{ expr := sym "x" }, { expr := sym "y" }, { expr := sym "v" }, { expr := sym "t" }]
  terminal := [{ expr := sym "x" - sym "x_f" }, { expr := sym "y" - sym "y_f" }] }

theorem brach_stated : Stated brach where
  costates := rfl
  coparameters := rfl
  parameters := rfl
  quads := rfl
  law := rfl
  acyclic := ⟨fun _ => 0, by decide⟩
  reg := ⟨rfl, by decide, by decide, by decide, by simp [brach], by decide, by decide⟩
  inside := by decide
  ends := by decide
  bounds := by simp [brach]
  flat := by simp [brach]
  names := by decide
  trig := by decide +kernel
  plain := by decide +kernel
  free := by decide +kernel
  ind := by decide +kernel

theorem brach_completes (U : Name → Nat → ℝ → ℝ) : Completes U brach id where
  off := fun _ _ _ => rfl
  quantities := by simp [brach]
  switches := by simp [brach]
  trig := by simp [TrigEnv, brach]

theorem brach_ham (U : Name → Nat → ℝ → ℝ) (B : ℝ → ℝ → ℝ → ℝ → ℝ) (l : Name → ℝ) (σ : Env) :
    (userOcp U id B brach).ham l σ = 1 + (l "x" * (σ "v" * Real.cos (σ "theta")) + (l "y" * (σ "v" * Real.sin (σ "theta")) +
      l "v" * (σ "g" * Real.sin (σ "theta")))) := by
  have e1 : ∀ v, (real U).fn .cos v = Real.cos v := fun _ => rfl
  have e2 : ∀ v, (real U).fn .sin v = Real.sin v := fun _ => rfl
  simp [userOcp, brach, Ocp.ham, penalties, eval, e1, e2]

/-- Extremals of the brachistochrone problem are cycloids. -/
theorem brach_rolled {U : Name → Nat → ℝ → ℝ} {B : ℝ → ℝ → ℝ → ℝ → ℝ} {a b : ℝ} (hab : a < b) {x : ℝ → Env} {lam : ℝ → Name → ℝ}
    {ν₀ ν₁ : Nat → ℝ} (h : Extremal (userOcp U id B brach) a b x lam ν₀ ν₁)
    (hθ : ∀ t ∈ Set.Icc a b, DifferentiableAt ℝ (fun τ => x τ "theta") t) (hg : x a "g" < 0) (hx : x b "x_f" ≠ 0) :
    a = 0 ∧ ∃ r ω, 0 < r ∧ r * ω ^ 2 = -x a "g" ∧ ∀ t ∈ Set.Icc a b, (x t "x", x t "y") = rolled r ω t ∧
      x t "v" ^ 2 = 2 * x a "g" * x t "y" ∧ x t "theta" = x a "theta" + ω / 2 * t := by
  have e1 : ∀ v, (real U).fn .cos v = Real.cos v := fun _ => rfl
  have e2 : ∀ v, (real U).fn .sin v = Real.sin v := fun _ => rfl
  have hgc : ∀ t ∈ Set.Icc a b, x t "g" = x a "g" := h.fixed "g" (by simp [userOcp, brach])
  have h0 := h.initial
  have h1 := h.terminal
  simp only [userOcp, brach, Con.twoSided, List.filter, Option.isSome, Bool.and_false, Bool.not_false, List.map_cons, List.map_nil,
    List.mem_cons, List.not_mem_nil, or_false, forall_eq_or_imp, forall_eq, id, eval] at h0 h1
  obtain ⟨ix, iy, iv, it⟩ := h0
  have ha : a = 0 := by
    rw [← h.time a ⟨le_refl _, hab.le⟩]
    exact it
  refine ⟨ha, ?_⟩
  have m := h.motion
  simp only [userOcp, brach, List.map_cons, List.map_nil, List.mem_cons, List.not_mem_nil, or_false, forall_eq_or_imp, forall_eq, id, eval, e1,
    e2] at m
  have hp : ∀ t ∈ Set.Icc a b, ∀ n d, HasPartial ((userOcp U id B brach).ham (lam t)) n d (x t) →
      HasDerivAt (fun z => 1 + (lam t "x" * (Function.update (x t) n z "v" * Real.cos (Function.update (x t) n z "theta")) +
        (lam t "y" * (Function.update (x t) n z "v" * Real.sin (Function.update (x t) n z "theta")) +
        lam t "v" * (Function.update (x t) n z "g" * Real.sin (Function.update (x t) n z "theta"))))) d (x t n) := by
    intro t _ n d hd
    rw [HasPartial] at hd
    simpa only [brach_ham] using hd
  have adj : ∀ n, (n = "x" ∨ n = "y" ∨ n = "v") → ∀ t ∈ Set.Icc a b, ∃ d, HasPartial ((userOcp U id B brach).ham (lam t)) n d (x t) ∧
      HasDerivAt (fun τ => lam τ n) (-d) t := by
    intro n hn t ht
    have hr : n ∈ (userOcp U id B brach).rates.map Prod.fst := by
      simpa [userOcp, brach] using hn
    obtain ⟨r, hr2, rfl⟩ := List.mem_map.1 hr
    exact h.adjoint r hr2 t ht
  have lx : ∀ t ∈ Set.Icc a b, HasDerivAt (fun τ => lam τ "x") 0 t := by
    intro t ht
    obtain ⟨d, hd, hl⟩ := adj "x" (by simp) t ht
    have k := hp t ht _ _ hd
    simp only [Function.update_apply, show ("v" : Name) ≠ "x" by decide, show ("theta" : Name) ≠ "x" by decide,
      show ("g" : Name) ≠ "x" by decide, if_false] at k
    have := k.unique (hasDerivAt_const _ _)
    rwa [this, neg_zero] at hl
  have ly : ∀ t ∈ Set.Icc a b, HasDerivAt (fun τ => lam τ "y") 0 t := by
    intro t ht
    obtain ⟨d, hd, hl⟩ := adj "y" (by simp) t ht
    have k := hp t ht _ _ hd
    simp only [Function.update_apply, show ("v" : Name) ≠ "y" by decide, show ("theta" : Name) ≠ "y" by decide,
      show ("g" : Name) ≠ "y" by decide, if_false] at k
    have := k.unique (hasDerivAt_const _ _)
    rwa [this, neg_zero] at hl
  have lv : ∀ t ∈ Set.Icc a b, HasDerivAt (fun τ => lam τ "v")
      (-(lam t "x" * Real.cos (x t "theta") + lam t "y" * Real.sin (x t "theta"))) t := by
    intro t ht
    obtain ⟨d, hd, hl⟩ := adj "v" (by simp) t ht
    have k := hp t ht _ _ hd
    simp only [Function.update_apply, show ("theta" : Name) ≠ "v" by decide,
      show ("g" : Name) ≠ "v" by decide, if_false, if_true] at k
    have k2 : HasDerivAt (fun z => 1 + (lam t "x" * (z * Real.cos (x t "theta")) + (lam t "y" * (z * Real.sin (x t "theta")) +
        lam t "v" * (x t "g" * Real.sin (x t "theta"))))) (lam t "x" * (1 * Real.cos (x t "theta")) +
        lam t "y" * (1 * Real.sin (x t "theta"))) (x t "v") :=
      ((((hasDerivAt_id _).mul_const _).const_mul _).add ((((hasDerivAt_id _).mul_const _).const_mul _).add_const _)).const_add _
    have := k.unique k2
    rw [this, one_mul, one_mul] at hl
    exact hl
  have st : ∀ t ∈ Set.Icc a b, -(lam t "x" * x t "v" * Real.sin (x t "theta")) + lam t "y" * x t "v" * Real.cos (x t "theta") +
      lam t "v" * x a "g" * Real.cos (x t "theta") = 0 := by
    intro t ht
    have k := hp t ht _ _ (h.stationary "theta" (by simp [userOcp, brach, epsControls]) t ht)
    simp only [Function.update_apply, show ("v" : Name) ≠ "theta" by decide,
      show ("g" : Name) ≠ "theta" by decide, if_false, if_true] at k
    have k2 : HasDerivAt (fun z => 1 + (lam t "x" * (x t "v" * Real.cos z) + (lam t "y" * (x t "v" * Real.sin z) +
        lam t "v" * (x t "g" * Real.sin z)))) (lam t "x" * (x t "v" * -Real.sin (x t "theta")) +
        (lam t "y" * (x t "v" * Real.cos (x t "theta")) + lam t "v" * (x t "g" * Real.cos (x t "theta")))) (x t "theta") :=
      ((((Real.hasDerivAt_cos _).const_mul _).const_mul _).add ((((Real.hasDerivAt_sin _).const_mul _).const_mul _).add
        (((Real.hasDerivAt_sin _).const_mul _).const_mul _))).const_add _
    have := k.unique k2
    rw [hgc t ht] at this
    linear_combination -this
  have hb : b ∈ Set.Icc a b := ⟨hab.le, le_refl _⟩
  have hH : (userOcp U id B brach).ham (lam b) (x b) = 0 := by
    have k := h.stop_time
    rw [HasPartial] at k
    have e : (fun z => lagrange (userOcp U id B brach).costTerminal (userOcp U id B brach).terminal ν₁
        (Function.update (x b) (userOcp U id B brach).ind z)) = fun _ => lagrange (userOcp U id B brach).costTerminal
        (userOcp U id B brach).terminal ν₁ (x b) := by
      funext z
      simp [lagrange, userOcp, brach, Con.twoSided, penalties, eval]
    rw [e] at k
    have := k.unique (hasDerivAt_const _ _)
    linarith
  rw [brach_ham, hgc b hb] at hH
  obtain ⟨r, ω, hr, hω, H⟩ := rolled_of_conditions (g := x a "g") hab m.1 m.2.1 (fun t ht => by
      have := m.2.2 t ht
      rwa [hgc t ht] at this) hθ lx ly lv st (by linarith) ix iy iv hg (by
      have k := h1.1
      simp only [eval_sub, eval] at k
      intro e
      rw [e] at k
      exact hx (by linarith))
  refine ⟨r, ω, hr, hω, fun t ht => ?_⟩
  have := H t ht
  rw [ha, sub_zero] at this
  rw [ha]
  exact this

/-! ### Properties -/

/-- Every solution of the boundary value problem that beluga makes of the brachistochrone problem is a cycloid: for every method,
every way to treat the controls, with and without normalised time, every gravity and every target.  The direction turns at half the
rate of the circle and the speed is that of a free fall; the curve ends at the target.

Assumed: the conditions of `C64_extremal_partial`, gravity points down, the target is not below the start. -/
theorem C94_solutions {S : Sympy} (hL : LuSound S) {o : Opts} {p' : Prob} (hm : o.momentumShift = true) (hd : o.method ≠ .other)
    (hS : o.controlMethod = .algebraic → SolveSound S) (h : indirect S o brach = .ok p') :
    ∃ q, primal S brach = .ok q ∧ ∀ U a b ρ, a < b → Solves U p' a b ρ → Regular S U q p' a b ρ →
      (o.normalizeTime = true → 0 < ρ a "_delta_t") → (∀ t ∈ Set.Icc a b, DifferentiableAt ℝ (fun τ => ρ τ "theta") t) →
      ρ a "g" < 0 → ρ b "x_f" ≠ 0 →
      (∃ r ω, 0 < r ∧ r * ω ^ 2 = -ρ a "g" ∧ ∀ τ ∈ Set.Icc a b, (ρ τ "x", ρ τ "y") = rolled r ω (ρ τ "t") ∧
        ρ τ "v" ^ 2 = 2 * ρ a "g" * ρ τ "y" ∧ ρ τ "theta" = ρ a "theta" + ω / 2 * ρ τ "t") ∧
      ρ b "x" = ρ b "x_f" ∧ ρ b "y" = ρ b "y_f" ∧ ∃ c, 0 < c ∧ ∀ τ ∈ Set.Icc a b, ρ τ "t" = c * (τ - a) := by
  obtain ⟨q, B, hq, -, H⟩ := C64_extremal_partial hL brach_stated hm hd hS h
  refine ⟨q, hq, ?_⟩
  intro U a b ρ hab hs hreg hpos hθ hg hx
  obtain ⟨c, hc⟩ : ∃ c, c = (if o.normalizeTime then ρ a ("_delta_" ++ brach.ind) else 1) := ⟨_, rfl⟩
  have hc0 : 0 < c := by
    rw [hc]
    split
    · next hn => exact hpos hn
    · exact one_pos
  have he := H U id (brach_completes U) a b ρ hab.le hs hreg c hc hc0
  have back : ∀ τ, a + ((ρ a brach.ind + c * (τ - a)) - ρ a brach.ind) / c = τ := by
    intro τ
    have := hc0.ne'
    field_simp
    ring
  have inside : ∀ t ∈ Set.Icc (ρ a brach.ind) (ρ a brach.ind + c * (b - a)), a + (t - ρ a brach.ind) / c ∈ Set.Icc a b := by
    intro t ht
    constructor
    · have := div_nonneg (sub_nonneg.2 ht.1) hc0.le
      linarith
    · have : (t - ρ a brach.ind) / c ≤ b - a := by
        rw [div_le_iff₀ hc0]
        linarith [ht.2, mul_comm c (b - a)]
      linarith
  have start : a + (ρ a brach.ind - ρ a brach.ind) / c = a := by simp
  have ends := he.terminal
  simp only [userOcp, brach, Con.twoSided, List.filter, Option.isSome, Bool.and_false, Bool.not_false, List.map_cons, List.map_nil,
    List.mem_cons, List.not_mem_nil, or_false, forall_eq_or_imp, forall_eq, id, eval_sub, eval] at ends
  obtain ⟨start0, r, ω, hr, hω, K⟩ := brach_rolled (by nlinarith [mul_pos hc0 (sub_pos.2 hab)]) he (by
    intro t ht
    exact DifferentiableAt.comp (g := fun τ => ρ τ "theta") (f := fun t => a + (t - ρ a brach.ind) / c) t (hθ _ (inside t ht))
      (by fun_prop)) (by simp only [start]; exact hg) (by rw [back]; exact hx)
  simp only [start] at hω K
  have eb := back b
  change a + ((ρ a "t" + c * (b - a)) - ρ a "t") / c = b at eb
  rw [eb] at ends
  have rows : ∀ τ ∈ Set.Icc a b, ρ a brach.ind + c * (τ - a) ∈ Set.Icc (ρ a brach.ind) (ρ a brach.ind + c * (b - a)) := by
    intro τ hτ
    have h1 := mul_nonneg hc0.le (sub_nonneg.2 hτ.1)
    have h2 := mul_le_mul_of_nonneg_left (sub_le_sub_right hτ.2 a) hc0.le
    exact ⟨by linarith, by linarith⟩
  have time : ∀ τ ∈ Set.Icc a b, ρ τ "t" = ρ a brach.ind + c * (τ - a) := by
    intro τ hτ
    have e := he.time _ (rows τ hτ)
    rw [back] at e
    exact e
  refine ⟨⟨r, ω, hr, hω, ?_⟩, by linarith [ends.1], by linarith [ends.2], c, hc0, fun τ hτ => by rw [time τ hτ, start0, zero_add]⟩
  intro τ hτ
  have k := K _ (rows τ hτ)
  rw [back] at k
  rw [← time τ hτ] at k
  exact k

/-- Whatever beluga returns for the brachistochrone problem lies on a cycloid that ends at the target: if the numerical solution
solves the boundary value problem, all rows of the returned tables are points of one cycloid at the returned times. -/
theorem C94_returned {S : Sympy} (hL : LuSound S) {o : Opts} {p' : Prob} (hm : o.momentumShift = true) (hd : o.method ≠ .other)
    (hS : o.controlMethod = .algebraic → SolveSound S) (h : indirect S o brach = .ok p') :
    ∃ q, primal S brach = .ok q ∧ ∀ U (O : TrigOps ℝ) rule, O.sin = Real.sin →
      ∀ a b y pr pc k ρ, a < b → NumSol U p' a b y pr pc k → Reads U p' a b y pr pc k ρ → Regular S U q p' a b ρ →
      (∀ x ∈ pr, 0 < x) → (∀ t ∈ Set.Icc a b, DifferentiableAt ℝ (fun τ => ρ τ "theta") t) → ρ a "g" < 0 → ρ b "x_f" ≠ 0 →
      ∀ s s' : Sol ℝ, s.t ≠ [] → (∀ τ ∈ s.t, τ ∈ Set.Icc a b) → s.y = .rows p'.states.length (s.t.map y) → s.dyn = pr →
        s.const = k → invIndirect S O rule (real U) o brach s = .ok s' →
      ∃ (r ω θ : ℝ) (v : ℝ → ℝ), 0 < r ∧ r * ω ^ 2 = -ρ a "g" ∧
        s'.y = .rows 3 (s'.t.map fun t => [(rolled r ω t).1, (rolled r ω t).2, v t]) ∧
        s'.u = .rows 1 (s'.t.map fun t => [θ + ω / 2 * t]) ∧
        (∀ t ∈ s'.t, v t ^ 2 = 2 * ρ a "g" * (rolled r ω t).2) ∧
        (b ∈ s.t → ∃ t ∈ s'.t, rolled r ω t = (ρ b "x_f", ρ b "y_f")) := by
  obtain ⟨q, B, hq, -, H⟩ := C73_returned_partial hL brach_stated hm hd hS h
  refine ⟨q, hq, ?_⟩
  intro U O rule hO a b y pr pc k ρ hab hnum hread hreg hpr hθ hg hx s s' hne hgrid hy hdyn hconst hinv
  obtain ⟨t₀, c, x, lam, ν₀, ν₁, hc0, he, ht, hret, -, -, -, -, hdr⟩ := H U id (brach_completes U) O rule hO a b y pr pc k ρ hab.le hnum
    hread hreg hpr s s' hne hgrid hy hdyn hconst hinv
  have start : x t₀ = ρ a := by rw [hdr.curve]; simp
  have stop : x (t₀ + c * (b - a)) = ρ b := by
    rw [hdr.curve]
    congr 1
    have := hc0.ne'
    field_simp
    ring
  have inside : ∀ t ∈ Set.Icc t₀ (t₀ + c * (b - a)), a + (t - t₀) / c ∈ Set.Icc a b := by
    intro t ht
    constructor
    · have := div_nonneg (sub_nonneg.2 ht.1) hc0.le
      linarith
    · have : (t - t₀) / c ≤ b - a := by
        rw [div_le_iff₀ hc0]
        linarith [ht.2, mul_comm c (b - a)]
      linarith
  have ends := he.terminal
  simp only [userOcp, brach, Con.twoSided, List.filter, Option.isSome, Bool.and_false, Bool.not_false, List.map_cons, List.map_nil,
    List.mem_cons, List.not_mem_nil, or_false, forall_eq_or_imp, forall_eq, id, eval_sub, eval] at ends
  rw [stop] at ends
  have hlt : t₀ < t₀ + c * (b - a) := by nlinarith [mul_pos hc0 (sub_pos.2 hab)]
  obtain ⟨-, r, ω, hr, hω, K⟩ := brach_rolled hlt he (by
    intro t ht
    have e : (fun τ => x τ "theta") = fun τ => ρ (a + (τ - t₀) / c) "theta" := by
      funext τ
      rw [hdr.curve]
    rw [e]
    exact DifferentiableAt.comp (g := fun τ => ρ τ "theta") (f := fun t => a + (t - t₀) / c) t (hθ _ (inside t ht))
      (by fun_prop)) (by rw [start]; exact hg) (by rw [stop]; exact hx)
  rw [start] at hω K
  have grid : ∀ t ∈ s'.t, t ∈ Set.Icc t₀ (t₀ + c * (b - a)) := by
    intro t h1
    rw [ht] at h1
    obtain ⟨τ, hτ, rfl⟩ := List.mem_map.1 h1
    have h2 := hgrid τ hτ
    have h3 := mul_nonneg hc0.le (sub_nonneg.2 h2.1)
    have h4 := mul_le_mul_of_nonneg_left (sub_le_sub_right h2.2 a) hc0.le
    exact ⟨by linarith, by linarith⟩
  refine ⟨r, ω, ρ a "theta", fun t => x t "v", hr, hω, ?_, ?_, ?_, ?_⟩
  · rw [hret.states]
    refine congrArg _ (List.map_congr_left fun t h1 => ?_)
    have := (K t (grid t h1)).1
    rw [← this]
    rfl
  · rw [hret.controls]
    refine congrArg _ (List.map_congr_left fun t h1 => ?_)
    have := (K t (grid t h1)).2.2
    rw [← this]
    rfl
  · intro t h1
    obtain ⟨k1, k2, -⟩ := K t (grid t h1)
    rw [← k1]
    exact k2
  · intro hb
    refine ⟨t₀ + c * (b - a), by rw [ht]; exact List.mem_map_of_mem (f := fun τ => t₀ + c * (τ - a)) hb, ?_⟩
    rw [← (K _ ⟨hlt.le, le_refl _⟩).1, stop, Prod.mk.injEq]
    exact ⟨by linarith [ends.1], by linarith [ends.2]⟩

end Beluga.E2E
