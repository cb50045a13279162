import Verif.EndToEnd.ZermeloBack
import Mathlib.Topology.Order.MonotoneContinuity
import Mathlib.Analysis.SpecialFunctions.Trigonometric.InverseDeriv

/-!
# There are fastest crossings (C99)

Crossings that follow the law of refraction exist for all currents and for all constants at which the boat is not reflected, so the
boundary value problem that beluga makes of Zermelo's problem has solutions.
-/

namespace Beluga.E2E

open Beluga.Sym Beluga.Sym.Expr Beluga.Num Beluga.Map Beluga.Opt Beluga.Rep

/-! ### Lemmas -/

/-- A differential equation of first order with a continuous, positive and bounded rate has a solution for all times, which comes to every
place. -/
theorem flow_exists {g : ℝ → ℝ} (hc : Continuous g) {V : ℝ} (hg : ∀ x, 0 < g x ∧ g x ≤ V) {w : ℝ} (hw : 0 < w) :
    ∃ (T : ℝ) (X : ℝ → ℝ), 0 < T ∧ X 0 = 0 ∧ X T = w ∧ ∀ t, HasDerivAt X (g (X t)) t := by
  have ci : Continuous fun x => (g x)⁻¹ := hc.inv₀ fun x => (hg x).1.ne'
  obtain ⟨τ, hτ⟩ : ∃ τ : ℝ → ℝ, τ = fun x => ∫ s in (0 : ℝ)..x, (g s)⁻¹ := ⟨_, rfl⟩
  have dτ : ∀ x, HasDerivAt τ (g x)⁻¹ x := by
    intro x
    rw [hτ]
    exact intervalIntegral.integral_hasDerivAt_right (ci.intervalIntegrable _ _) (ci.stronglyMeasurableAtFilter _ _) ci.continuousAt
  have τ0 : τ 0 = 0 := by rw [hτ]; exact intervalIntegral.integral_same
  have mono : StrictMono τ := strictMono_of_deriv_pos fun x => by
    rw [(dτ x).deriv]
    exact inv_pos.2 (hg x).1
  have cτ : Continuous τ := continuous_iff_continuousAt.2 fun x => (dτ x).continuousAt
  have hV : 0 < V := (hg 0).1.trans_le (hg 0).2
  have m2 : Monotone fun x => τ x - V⁻¹ * x := by
    have dd : ∀ x, HasDerivAt (fun x => τ x - V⁻¹ * x) ((g x)⁻¹ - V⁻¹ * 1) x := fun x => (dτ x).sub ((hasDerivAt_id x).const_mul _)
    refine monotone_of_deriv_nonneg (fun x => (dd x).differentiableAt) fun x => ?_
    rw [(dd x).deriv, mul_one, sub_nonneg]
    exact inv_anti₀ (hg x).1 (hg x).2
  have surj : Function.Surjective τ := by
    refine cτ.surjective ?_ ?_
    · refine Filter.tendsto_atTop_mono' _ ?_ (Filter.tendsto_id.const_mul_atTop (inv_pos.2 hV))
      filter_upwards [Filter.eventually_ge_atTop (0 : ℝ)] with x hx
      have := m2 hx
      simp only [τ0, mul_zero, sub_zero] at this
      simp only [id]
      linarith
    · refine Filter.tendsto_atBot_mono' _ ?_ (Filter.tendsto_id.const_mul_atBot (inv_pos.2 hV))
      filter_upwards [Filter.eventually_le_atBot (0 : ℝ)] with x hx
      have := m2 hx
      simp only [τ0, mul_zero, sub_zero] at this
      simp only [id]
      linarith
  obtain ⟨φ, hφ⟩ : ∃ φ : ℝ ≃o ℝ, ∀ x, φ x = τ x := ⟨mono.orderIsoOfSurjective τ surj, fun _ => rfl⟩
  refine ⟨τ w, φ.symm, by rw [← τ0]; exact mono hw, ?_, ?_, fun t => ?_⟩
  · rw [OrderIso.symm_apply_eq, hφ, τ0]
  · rw [OrderIso.symm_apply_eq, hφ]
  · have := HasDerivAt.of_local_left_inverse φ.symm.continuous.continuousAt (dτ (φ.symm t)) (inv_pos.2 (hg _).1).ne'
      (Filter.Eventually.of_forall fun y => by rw [← hφ, OrderIso.apply_symm_apply])
    rwa [inv_inv] at this

/-- For every constant at which the boat is not reflected there is a crossing that follows the law of refraction. -/
theorem refracts_exists {V k w : ℝ} {d : ℝ → ℝ} (hd : Differentiable ℝ d) (hV : 0 < V) (hw : 0 < w)
    (hk : ∀ s ∈ Set.Icc 0 w, |k| * V < 1 + k * d s) : ∃ T X Y Θ, 0 < T ∧ X T = w ∧ Refracts V d k T X Y Θ := by
  obtain ⟨c, hc⟩ : ∃ c : ℝ → ℝ, c = fun x => max 0 (min w x) := ⟨_, rfl⟩
  have cc : Continuous c := by rw [hc]; fun_prop
  have cm : ∀ x, c x ∈ Set.Icc 0 w := fun x => by
    rw [hc]
    exact ⟨le_max_left _ _, max_le hw.le (min_le_left _ _)⟩
  have cid : ∀ x ∈ Set.Icc 0 w, c x = x := fun x hx => by
    rw [hc]
    simp only
    rw [min_eq_right hx.2, max_eq_right hx.1]
  obtain ⟨S, hS⟩ : ∃ S : ℝ → ℝ, S = fun x => -(k * V / (1 + k * d x)) := ⟨_, rfl⟩
  have pos : ∀ s ∈ Set.Icc 0 w, 0 < 1 + k * d s := fun s hs => lt_of_le_of_lt (by positivity) (hk s hs)
  have S1 : ∀ s ∈ Set.Icc 0 w, -1 < S s ∧ S s < 1 := by
    intro s hs
    rw [← abs_lt, hS]
    simp only
    rw [abs_neg, abs_div, abs_of_pos (pos s hs), abs_mul, abs_of_pos hV, div_lt_one (pos s hs)]
    exact hk s hs
  have Sd : ∀ s ∈ Set.Icc 0 w, DifferentiableAt ℝ S s := by
    intro s hs
    rw [hS]
    exact ((differentiableAt_const _).div ((differentiableAt_const _).add ((hd s).const_mul k)) (pos s hs).ne').neg
  have Sc : Continuous fun x => S (c x) := by
    rw [hS]
    exact ((continuous_const).div (continuous_const.add (continuous_const.mul (hd.continuous.comp cc))) fun x => (pos _ (cm x)).ne').neg
  have root : ∀ s ∈ Set.Icc 0 w, 0 < √(1 - S s ^ 2) ∧ √(1 - S s ^ 2) ≤ 1 := by
    intro s hs
    obtain ⟨a, b⟩ := S1 s hs
    refine ⟨Real.sqrt_pos.2 (by nlinarith), Real.sqrt_le_one.2 (by nlinarith [sq_nonneg (S s)])⟩
  obtain ⟨T, X, hT, X0, XT, dX⟩ := flow_exists (g := fun x => V * √(1 - S (c x) ^ 2))
    (continuous_const.mul (Real.continuous_sqrt.comp (continuous_const.sub (Sc.pow 2)))) (V := V)
    (fun x => ⟨mul_pos hV (root _ (cm x)).1, by nlinarith [(root _ (cm x)).2]⟩) hw
  have mono : Monotone X := monotone_of_deriv_nonneg (fun t => (dX t).differentiableAt) fun t => by
    rw [(dX t).deriv]
    exact (mul_pos hV (root _ (cm _)).1).le
  have inside : ∀ t ∈ Set.Icc 0 T, X t ∈ Set.Icc 0 w := fun t ht => ⟨by rw [← X0]; exact mono ht.1, by rw [← XT]; exact mono ht.2⟩
  have cX : Continuous X := continuous_iff_continuousAt.2 fun t => (dX t).continuousAt
  have cY : Continuous fun t => V * S (c (X t)) + d (c (X t)) :=
    (continuous_const.mul (Sc.comp cX)).add (hd.continuous.comp (cc.comp cX))
  have sn : ∀ t ∈ Set.Icc 0 T, Real.sin (Real.arcsin (S (X t))) = S (X t) := fun t ht =>
    Real.sin_arcsin (S1 _ (inside t ht)).1.le (S1 _ (inside t ht)).2.le
  have rel : ∀ t ∈ Set.Icc 0 T, S (X t) * (1 + k * d (X t)) = -(k * V) := by
    intro t ht
    rw [hS]
    have := (pos _ (inside t ht)).ne'
    field_simp
  refine ⟨T, X, fun t => ∫ s in (0 : ℝ)..t, (V * S (c (X s)) + d (c (X s))), fun t => Real.arcsin (S (X t)), hT, XT,
    ⟨⟨X0, intervalIntegral.integral_same⟩, ?_, ?_, ?_, ?_, ?_, ?_⟩⟩
  · intro t ht
    rw [Real.cos_arcsin]
    have := dX t
    rwa [cid _ (inside t ht)] at this
  · intro t ht
    have := intervalIntegral.integral_hasDerivAt_right (cY.intervalIntegrable 0 t) (cY.stronglyMeasurableAtFilter _ _) cY.continuousAt
    rw [sn t ht]
    rwa [cid _ (inside t ht)] at this
  · intro t ht
    obtain ⟨a, b⟩ := S1 _ (inside t ht)
    have d1 : DifferentiableAt ℝ (fun τ => S (X τ)) t := DifferentiableAt.comp t (Sd _ (inside t ht)) (dX t).differentiableAt
    exact DifferentiableAt.comp (g := Real.arcsin) (f := fun τ => S (X τ)) t (Real.differentiableAt_arcsin.2 ⟨a.ne', b.ne⟩) d1
  · intro t ht
    rw [Real.cos_arcsin]
    exact (root _ (inside t ht)).1
  · intro t ht
    rw [sn t ht]
    have p := pos _ (inside t ht)
    have e : (V + d (X t) * S (X t)) * (1 + k * d (X t)) = V := by linear_combination d (X t) * rel t ht
    by_contra hn
    have := mul_nonpos_of_nonpos_of_nonneg (not_lt.1 hn) p.le
    linarith
  · intro t ht
    rw [sn t ht]
    linear_combination rel t ht

/-- The slope of the penalty takes every value. -/
theorem miss_slope {ε w : ℝ} (hε : 0 < ε) (hw : 0 < w) (k : ℝ) : ∃ z, |z| < w ∧ HasDerivAt (miss ε w) k z := by
  have hc : 0 < ε * (Real.pi / 2 / w) := by have := Real.pi_pos; positivity
  obtain ⟨u, hu, e⟩ : ∃ u ∈ Set.Icc (-(Real.pi / 2)) (Real.pi / 2), k * Real.cos u ^ 2 - ε * (Real.pi / 2 / w) * Real.sin u = 0 := by
    have cont : ContinuousOn (fun u => k * Real.cos u ^ 2 - ε * (Real.pi / 2 / w) * Real.sin u) (Set.Icc (-(Real.pi / 2)) (Real.pi / 2)) := by
      fun_prop
    have := intermediate_value_Icc' (by linarith [Real.pi_pos]) cont
    exact this ⟨by simp; positivity, by simp; positivity⟩
  have u1 : -(Real.pi / 2) < u := lt_of_le_of_ne hu.1 (by
    rintro rfl
    simp at e
    rcases e with e | e <;> linarith [Real.pi_pos])
  have u2 : u < Real.pi / 2 := lt_of_le_of_ne hu.2 (by
    rintro rfl
    simp at e
    rcases e with e | e <;> linarith [Real.pi_pos])
  have cu : 0 < Real.cos u := Real.cos_pos_of_mem_Ioo ⟨u1, u2⟩
  have hp := Real.pi_pos
  have arg : Real.pi / 2 * (2 * w * u / Real.pi / w) = u := by field_simp
  refine ⟨2 * w * u / Real.pi, ?_, ?_⟩
  · rw [abs_lt]
    constructor
    · rw [lt_div_iff₀ hp]
      nlinarith
    · rw [div_lt_iff₀ hp]
      nlinarith
  · have lin : HasDerivAt (fun z => Real.pi / 2 * (z / w)) (Real.pi / 2 * (1 / w)) (2 * w * u / Real.pi) :=
      ((hasDerivAt_id _).div_const w).const_mul _
    have kk := (((lin.cos.inv (by rw [arg]; exact cu.ne')).sub_const 1).const_mul ε)
    have em : miss ε w = fun z => ε * ((fun z => Real.cos (Real.pi / 2 * (z / w)))⁻¹ z - 1) := by
      funext z
      simp [miss]
    rw [em]
    refine kk.congr_deriv ?_
    rw [arg]
    field_simp
    field_simp at e
    linear_combination -e

/-! ### Properties -/

/-- The boundary value problem that beluga makes of Zermelo's problem with its default options has a solution with all properties that
`C99_solutions_partial` assumes, for every current and every speed, width of the river, activator and allowed distance, and every constant
`k` of the law of refraction at which the boat is not reflected: there is a place to land near that belongs to it. -/
theorem C99_exists {U : Name → Nat → ℝ → ℝ} (hU : ∀ j v, HasDerivAt (U "drift_y" j) (U "drift_y" (j + 1) v) v) {V k ε w xf : ℝ}
    (hV : 0 < V) (hε : 0 < ε) (hw : 0 < w) (hx : 0 < xf) (hk : ∀ s ∈ Set.Icc 0 xf, |k| * V < 1 + k * U "drift_y" 0 s) :
    ∃ ρ, Solves U zermBvp 0 1 ρ ∧ Regular brachS U zermQ zermBvp 0 1 ρ ∧ 0 < ρ 0 "_delta_t" ∧
      (∀ t ∈ Set.Icc (0 : ℝ) 1, DifferentiableAt ℝ (fun τ => ρ τ "theta") t) ∧
      ρ 1 "V" = V ∧ ρ 1 "epsilon" = ε ∧ ρ 1 "y_f_width" = w ∧ ρ 1 "x_f" = xf ∧
      (∀ t ∈ Set.Icc (0 : ℝ) 1, 0 < Real.cos (ρ t "theta")) ∧
      (∀ t ∈ Set.Icc (0 : ℝ) 1, 0 < ρ 1 "V" + U "drift_y" 0 (ρ t "x") * Real.sin (ρ t "theta")) ∧
      |ρ 1 "y" - ρ 1 "y_f"| < ρ 1 "y_f_width" ∧ HasDerivAt (miss ε w) k (ρ 1 "y" - ρ 1 "y_f") := by
  obtain ⟨T, X, Y, Θ, hT, XT, h⟩ := refracts_exists (d := U "drift_y" 0) (fun v => (hU 0 v).differentiableAt) hV hx hk
  obtain ⟨z, near, hz⟩ := miss_slope hε hw k
  obtain ⟨ρ, s1, s2, s3, s4, s5, s6⟩ := C99_complete hU
    (h.navigates (fun v => (hU 0 v).differentiableAt) hV hT) hV hT near hz
  have mem : ∀ t ∈ Set.Icc (0 : ℝ) 1, T * t ∈ Set.Icc 0 T := fun τ hτ => ⟨mul_nonneg hT.le hτ.1, by nlinarith [hτ.2]⟩
  obtain ⟨v1, v2, v3, v4, v5⟩ := s5 1
  have e : ρ 1 "y" - ρ 1 "y_f" = z := by
    rw [(s6 1).2.2.1, v5, mul_one, sub_sub_cancel]
  refine ⟨ρ, s1, s2, s3, s4, v1, v2, v3, v4.trans XT, ?_, ?_, ?_, ?_⟩
  · intro t ht
    rw [(s6 t).2.2.2]
    exact h.forward _ (mem t ht)
  · intro t ht
    rw [(s6 t).2.2.2, (s6 t).2.1, v1]
    exact h.fast _ (mem t ht)
  · rw [e, v3]
    exact near
  · rw [e]
    exact hz

/-- The river of the example with a boat of speed two that heads against the current: it has a solution that lands below the place asked
for. -/
example : ∃ ρ, Solves river zermBvp 0 1 ρ ∧ ρ 1 "V" = 2 ∧ ρ 1 "x_f" = 10 ∧ HasDerivAt (miss 0.01 2) (-(1 / 4)) (ρ 1 "y" - ρ 1 "y_f") := by
  obtain ⟨ρ, s1, -, -, -, v1, -, -, v4, -, -, -, h⟩ := C99_exists (river_smooth "drift_y") (V := 2) (k := -(1 / 4)) (ε := 0.01) (w := 2)
    (xf := 10) (by norm_num) (by norm_num) (by norm_num) (by norm_num) (fun s hs => by
      rw [river_zero, abs_neg, abs_of_pos (by norm_num)]
      have : (s - 5) ^ 2 ≤ 25 := by nlinarith [hs.1, hs.2]
      nlinarith [sq_nonneg (s - 5)])
  exact ⟨ρ, s1, v1, v4, h⟩

end Beluga.E2E
