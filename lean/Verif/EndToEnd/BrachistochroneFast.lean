import Verif.EndToEnd.BrachistochroneBack
import Verif.EndToEnd.Fastest

/-!
# The brachistochrone example gives the fastest descent (C98)

The cycloids that beluga returns for the brachistochrone problem (`Verif.EndToEnd.Brachistochrone`) take the least time of all
frictionless descents that never run backwards (`Verif.EndToEnd.Fastest`), until they return to the height of the start.  The boundary
value problem does not exclude later arches, which are slower.
-/

namespace Beluga.E2E

open Beluga.Sym Beluga.Sym.Expr Beluga.Num Beluga.Map Beluga.Opt Beluga.Rep

/-! ### Properties -/

/-- Every solution is fastest until it returns to the height of the start: with the momentum shift, every solution of the boundary value
problem that beluga makes of the brachistochrone problem reaches each of its points as early as any descent.  Missing: solutions that go
on to another arch (`C98_violated`). -/
theorem C98_solutions_partial {S : Sympy} (hL : LuSound S) {o : Opts} {p' : Prob} (hm : o.momentumShift = true) (hd : o.method ≠ .other)
    (hS : o.controlMethod = .algebraic → SolveSound S) (h : indirect S o brach = .ok p') :
    ∃ q, primal S brach = .ok q ∧ ∀ U a b ρ, a < b → Solves U p' a b ρ → Regular S U q p' a b ρ →
      (o.normalizeTime = true → 0 < ρ a "_delta_t") → (∀ t ∈ Set.Icc a b, DifferentiableAt ℝ (fun τ => ρ τ "theta") t) →
      ρ a "g" < 0 → ρ b "x_f" ≠ 0 →
      ∀ τ ∈ Set.Icc a b, (∀ τ' ∈ Set.Ioc a τ, ρ τ' "y" ≠ 0) →
        ∀ T' X Y V Θ, 0 ≤ T' → Descends (ρ a "g") T' (ρ τ "x") (ρ τ "y") X Y V Θ → ρ τ "t" ≤ T' := by
  obtain ⟨q, hq, H⟩ := C94_solutions hL hm hd hS h
  refine ⟨q, hq, ?_⟩
  intro U a b ρ hab hs hreg hpos hθ hg hx τ hτ hy T' X Y V Θ hT' hX
  obtain ⟨⟨r, ω, hr, hω, K⟩, -, -, c, hc, ht⟩ := H U a b ρ hab hs hreg hpos hθ hg hx
  obtain ⟨k, -, -⟩ := K τ hτ
  have kx : ρ τ "x" = (rolled r ω (ρ τ "t")).1 := congrArg Prod.fst k
  have ky : ρ τ "y" = (rolled r ω (ρ τ "t")).2 := congrArg Prod.snd k
  rw [kx, ky] at hX
  refine rolled_fastest hg hr hω ?_ hT' hX
  intro t h1
  have e : c * (a + t / c - a) = t := by
    have := hc.ne'
    field_simp
    ring
  have h2 : a + t / c ∈ Set.Ioc a τ := by
    have := div_pos h1.1 hc
    refine ⟨by linarith, ?_⟩
    have k2 : t / c ≤ τ - a := by
      rw [div_le_iff₀ hc, mul_comm, ← ht τ hτ]
      exact h1.2
    linarith
  have h3 : a + t / c ∈ Set.Icc a b := ⟨h2.1.le, h2.2.trans hτ.2⟩
  have ky' : ρ (a + t / c) "y" = (rolled r ω (ρ (a + t / c) "t")).2 := congrArg Prod.snd (K _ h3).1
  have := hy _ h2
  rw [ky', ht _ h3, e] at this
  exact this

/-- Whatever beluga returns is fastest until it returns to the height of the start: no descent reaches a returned point earlier than the
returned time.  Missing: solutions that go on to another arch (`C98_violated`). -/
theorem C98_returned_partial {S : Sympy} (hL : LuSound S) {o : Opts} {p' : Prob} (hm : o.momentumShift = true) (hd : o.method ≠ .other)
    (hS : o.controlMethod = .algebraic → SolveSound S) (h : indirect S o brach = .ok p') :
    ∃ q, primal S brach = .ok q ∧ ∀ U (O : TrigOps ℝ) rule, O.sin = Real.sin →
      ∀ a b y pr pc k ρ, a < b → NumSol U p' a b y pr pc k → Reads U p' a b y pr pc k ρ → Regular S U q p' a b ρ →
      (∀ x ∈ pr, 0 < x) → (∀ t ∈ Set.Icc a b, DifferentiableAt ℝ (fun τ => ρ τ "theta") t) → ρ a "g" < 0 → ρ b "x_f" ≠ 0 →
      ∀ s s' : Sol ℝ, s.t ≠ [] → (∀ τ ∈ s.t, τ ∈ Set.Icc a b) → s.y = .rows p'.states.length (s.t.map y) → s.dyn = pr →
        s.const = k → invIndirect S O rule (real U) o brach s = .ok s' →
      ∃ (P : ℝ → ℝ × ℝ) (v : ℝ → ℝ), s'.y = .rows 3 (s'.t.map fun t => [(P t).1, (P t).2, v t]) ∧ P 0 = (0, 0) ∧
        ∀ t ∈ s'.t, (∀ t' ∈ Set.Ioc 0 t, (P t').2 ≠ 0) →
          ∀ T' X Y V Θ, 0 ≤ T' → Descends (ρ a "g") T' (P t).1 (P t).2 X Y V Θ → t ≤ T' := by
  obtain ⟨q, hq, H⟩ := C94_returned hL hm hd hS h
  refine ⟨q, hq, ?_⟩
  intro U O rule hO a b y pr pc k ρ hab hnum hread hreg hpr hθ hg hx s s' hne hgrid hy hdyn hconst hinv
  obtain ⟨r, ω, θ, v, hr, hω, k1, -, -, -⟩ := H U O rule hO a b y pr pc k ρ hab hnum hread hreg hpr hθ hg hx s s' hne hgrid hy hdyn
    hconst hinv
  refine ⟨rolled r ω, v, k1, by simp [rolled], ?_⟩
  intro t _ arch T' X Y V Θ hT' hX
  exact rolled_fastest hg hr hω arch hT' hX

/-- There is always a fastest solution: for every gravity and every target that is lower than the start and to the right of it, the
boundary value problem that beluga makes of the brachistochrone problem with its default options has a solution that arrives as early as
any descent to the target. -/
theorem C98_exists (U : Name → Nat → ℝ → ℝ) {g xf yf : ℝ} (hg : g < 0) (hx : 0 < xf) (hy : yf < 0) :
    ∃ ρ, Solves U brachBvp 0 1 ρ ∧ Regular brachS U brachQ brachBvp 0 1 ρ ∧ 0 < ρ 0 "_delta_t" ∧
      (∀ t ∈ Set.Icc (0 : ℝ) 1, DifferentiableAt ℝ (fun τ => ρ τ "theta") t) ∧ ρ 0 "g" = g ∧ ρ 1 "x_f" = xf ∧ ρ 1 "y_f" = yf ∧
      (∃ X Y V Θ, Descends g (ρ 1 "t") xf yf X Y V Θ ∧ ∀ τ ∈ Set.Icc (0 : ℝ) 1, X (ρ τ "t") = ρ τ "x" ∧ Y (ρ τ "t") = ρ τ "y") ∧
      ∀ T' X Y V Θ, 0 ≤ T' → Descends g T' xf yf X Y V Θ → ρ 1 "t" ≤ T' := by
  obtain ⟨r, ω, T, hr0, hω, hr, hT, hT2, e⟩ := cycloid_to hg hx hy
  obtain ⟨ρ, s1, s2, s3, s4, s5, s6, s7⟩ := C94_complete U hg hω hr hT
    (Real.sin_pos_of_pos_of_lt_pi (by positivity) (by linarith)).ne'
  have t1 : ρ 1 "t" = T := by rw [(s7 1 (by simp)).1, mul_one]
  rw [e, Prod.mk.injEq] at s6
  refine ⟨ρ, s1, s2, s3, s4, s5, s6.1, s6.2, ?_, ?_⟩
  · have d := rolled_descends hω hr hr0 hT2.le
    rw [e] at d
    rw [t1]
    refine ⟨_, _, _, _, d, fun τ hτ => ?_⟩
    obtain ⟨k1, k2⟩ := s7 τ hτ
    rw [k1, ← k2]
    exact ⟨rfl, rfl⟩
  · intro T' X Y V Θ hT' hX
    rw [t1]
    refine cycloid_fastest hg hr0 hω hr hT hT2 hT' (X := X) (Y := Y) (V := V) (Θ := Θ) ?_
    rw [e]
    exact hX

/-- Not every solution is fastest: for every gravity there are targets (every point of a half line) for which the boundary value problem
that beluga makes of the brachistochrone problem with its default options also has a solution that comes to rest on the way, at the height
of the start, and arrives later than another descent. -/
theorem C98_violated (U : Name → Nat → ℝ → ℝ) {g R : ℝ} (hg : g < 0) (hR : 0 < R) :
    ∃ ρ, Solves U brachBvp 0 1 ρ ∧ Regular brachS U brachQ brachBvp 0 1 ρ ∧ 0 < ρ 0 "_delta_t" ∧
      (∀ t ∈ Set.Icc (0 : ℝ) 1, DifferentiableAt ℝ (fun τ => ρ τ "theta") t) ∧ ρ 0 "g" = g ∧
      ρ 1 "x_f" = 3 * Real.pi * R ∧ ρ 1 "y_f" = -(2 * R) ∧ (∃ τ ∈ Set.Ioo (0 : ℝ) 1, ρ τ "y" = 0) ∧
      ∃ T' X Y V Θ, 0 ≤ T' ∧ Descends g T' (ρ 1 "x_f") (ρ 1 "y_f") X Y V Θ ∧ T' < ρ 1 "t" := by
  have hpi := Real.pi_pos
  obtain ⟨ω, hω⟩ : ∃ ω, ω = Real.sqrt (-g / R) := ⟨_, rfl⟩
  have hω0 : 0 < ω := by
    rw [hω]
    exact Real.sqrt_pos.2 (div_pos (by linarith) hR)
  have hω2 : R * ω ^ 2 = -g := by
    rw [hω, Real.sq_sqrt (div_pos (by linarith) hR).le]
    field_simp
  have s3 : Real.sin (3 * Real.pi) = 0 := by simpa using Real.sin_nat_mul_pi 3
  have c3 : Real.cos (3 * Real.pi) = -1 := by
    rw [show 3 * Real.pi = Real.pi + 2 * Real.pi by ring, Real.cos_add_two_pi, Real.cos_pi]
  have hT : ω * (3 * Real.pi / ω) = 3 * Real.pi := by field_simp
  have end' : rolled R ω (3 * Real.pi / ω) = (3 * Real.pi * R, -(2 * R)) := by
    rw [rolled, hT, s3, c3, Prod.mk.injEq]
    constructor <;> ring
  obtain ⟨ρ, k1, k2, k3, k4, k5, k6, k7⟩ := C94_complete U hg hω0 hω2 (T := 3 * Real.pi / ω) (by positivity) (by
    rw [show ω / 2 * (3 * Real.pi / ω) = Real.pi / 2 + Real.pi by field_simp; ring, Real.sin_add_pi, Real.sin_pi_div_two]
    norm_num)
  rw [end', Prod.mk.injEq] at k6
  refine ⟨ρ, k1, k2, k3, k4, k5, k6.1, k6.2, ⟨2 / 3, by norm_num, ?_⟩, ?_⟩
  · have ky : ρ (2 / 3) "y" = (rolled R ω (3 * Real.pi / ω * (2 / 3))).2 := congrArg Prod.snd (k7 (2 / 3) (by norm_num)).2
    rw [ky, rolled, show ω * (3 * Real.pi / ω * (2 / 3)) = 2 * Real.pi by field_simp, Real.cos_two_pi]
    simp
  obtain ⟨r, w, T', hr, hw, hrw, hT', hT2, e⟩ := cycloid_to hg (xf := 3 * Real.pi * R) (yf := -(2 * R)) (by positivity) (by linarith)
  have d := rolled_descends hw hrw hr hT2.le
  rw [e] at d
  rw [k6.1, k6.2]
  refine ⟨T', _, _, _, _, hT'.le, d, ?_⟩
  rw [(k7 1 (by norm_num)).1, mul_one, lt_div_iff₀ hω0]
  -- the first arch is faster than the second one
  obtain ⟨ψ, hψ⟩ : ∃ ψ, ψ = w * T' := ⟨_, rfl⟩
  have hψ0 : 0 < ψ := by rw [hψ]; positivity
  rw [rolled, ← hψ, Prod.mk.injEq] at e
  obtain ⟨ex, ey⟩ := e
  rw [← hψ] at hT2
  have main : ψ ^ 2 < 3 * Real.pi * (ψ - Real.sin ψ) := by
    rcases le_or_gt Real.pi ψ with hle | hlt
    · have : Real.sin ψ ≤ 0 := by
        have := Real.sin_nonpos_of_nonpos_of_neg_pi_le (x := ψ - 2 * Real.pi) (by linarith) (by linarith)
        rwa [Real.sin_sub_two_pi] at this
      nlinarith
    · have k := Real.cos_le_one_sub_mul_cos_sq (x := ψ) (by rw [abs_of_pos hψ0]; exact hlt.le)
      have k8 : ψ - Real.sin ψ = 3 * Real.pi / 2 * (1 - Real.cos ψ) := by
        have : r * (ψ - Real.sin ψ) = r * (3 * Real.pi / 2 * (1 - Real.cos ψ)) := by linear_combination ex + 3 * Real.pi / 2 * ey
        exact mul_left_cancel₀ hr.ne' this
      have k9 : 3 * Real.pi / 2 * (2 / Real.pi ^ 2 * ψ ^ 2) ≤ 3 * Real.pi / 2 * (1 - Real.cos ψ) :=
        mul_le_mul_of_nonneg_left (by linarith) (by positivity)
      have k10 : 3 * Real.pi * (3 * Real.pi / 2 * (2 / Real.pi ^ 2 * ψ ^ 2)) = 9 * ψ ^ 2 := by
        field_simp
        norm_num
      have := mul_le_mul_of_nonneg_left k9 (show 0 ≤ 3 * Real.pi by positivity)
      rw [k8]
      have : 0 < ψ ^ 2 := by positivity
      linarith
  have fin : (T' * ω) ^ 2 < (3 * Real.pi) ^ 2 := by
    have h1 : r * w ^ 2 = R * ω ^ 2 := hrw.trans hω2.symm
    have h2 : r * ψ ^ 2 < r * (3 * Real.pi * (ψ - Real.sin ψ)) := mul_lt_mul_of_pos_left main hr
    have h3 : R * (T' * ω) ^ 2 = r * ψ ^ 2 := by
      rw [hψ]
      linear_combination (-(T' ^ 2)) * h1
    have h4 : R * (T' * ω) ^ 2 < R * (3 * Real.pi) ^ 2 := by
      rw [h3]
      linear_combination h2 + (3 * Real.pi) * ex
    exact lt_of_mul_lt_mul_left h4 hR.le
  exact lt_of_pow_lt_pow_left₀ 2 (by positivity) fin

/-! ### A concrete case -/

/-- The end of the continuation of the example: no descent to (10, -10) with the gravity of the Earth takes less time than one of the
solutions (examples/Classic/Brachistochrone/Brachistochrone.py:22-56). -/
example (U : Name → Nat → ℝ → ℝ) : ∃ ρ, Solves U brachBvp 0 1 ρ ∧ (∃ X Y V Θ, Descends (-9.81) (ρ 1 "t") 10 (-10) X Y V Θ) ∧
    ∀ T' X Y V Θ, 0 ≤ T' → Descends (-9.81) T' 10 (-10) X Y V Θ → ρ 1 "t" ≤ T' := by
  obtain ⟨ρ, s1, -, -, -, -, -, -, ⟨X, Y, V, Θ, d, -⟩, s⟩ := C98_exists U (g := -9.81) (xf := 10) (yf := -10) (by norm_num) (by norm_num)
    (by norm_num)
  exact ⟨ρ, s1, ⟨X, Y, V, Θ, d⟩, s⟩

end Beluga.E2E
