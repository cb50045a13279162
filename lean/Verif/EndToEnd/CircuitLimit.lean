import Verif.EndToEnd.CircuitBack

/-!
# The one-loop circuit example: the continuation approaches the least cost (C100)

`C100_returned` compares with voltages that keep away from the bounds.  A mixture of any voltage with one that does keeps away from them too,
and the cost is convex, so for small activators the returned voltages cost hardly more than any voltage at all.
-/

namespace Beluga.E2E

open Beluga.Sym Beluga.Sym.Expr Beluga.Num Beluga.Map Beluga.Opt Beluga.Rep

/-! ### Lemmas -/

theorem Charges.summable {R L i₀ m M : ℝ} {I W : ℝ → ℝ} (h : Charges R L i₀ m M I W) {α : ℝ} (hα : 0 ≤ α) (β : ℝ) :
    IntervalIntegrable (fun t => α * W t ^ 2 / 2 + β * (I t - i₀) ^ 2 / 2) MeasureTheory.volume 0 1 := by
  rw [intervalIntegrable_iff_integrableOn_Icc_of_le zero_le_one]
  have z1 : MeasureTheory.IntegrableOn (fun t => α * W t ^ 2 / 2) (Set.Icc 0 1) := by
    refine MeasureTheory.Integrable.of_bound (C := α * (|m| + |M|) ^ 2 / 2) ?_ ?_
    · have := (h.measurable.pow 2).const_mul (α / 2)
      refine this.congr (Filter.Eventually.of_forall fun t => ?_)
      simp only [Pi.pow_apply]
      ring
    · refine (MeasureTheory.ae_restrict_iff' measurableSet_Icc).2 (Filter.Eventually.of_forall fun t ht => ?_)
      have b := h.bounds t ht
      have k : |W t| ≤ |m| + |M| := abs_le.2 ⟨by linarith [neg_abs_le m, abs_nonneg M], by linarith [le_abs_self M, abs_nonneg m]⟩
      have k2 : W t ^ 2 ≤ (|m| + |M|) ^ 2 := by
        rw [← sq_abs (W t)]
        exact pow_le_pow_left₀ (abs_nonneg _) k 2
      rw [Real.norm_eq_abs, abs_of_nonneg (by positivity)]
      have := mul_le_mul_of_nonneg_left k2 hα
      linarith
  exact z1.add (ContinuousOn.integrableOn_Icc (((continuousOn_const.mul ((h.continuous.sub continuousOn_const).pow 2)).div_const 2)))

/-- A mixture of two voltages. -/
theorem Charges.mix {R L i₀ m M : ℝ} {I W J Z : ℝ → ℝ} (h : Charges R L i₀ m M I W) (k : Charges R L i₀ m M J Z) {θ : ℝ} (h0 : 0 ≤ θ) (h1 : θ ≤ 1) :
    Charges R L i₀ m M (fun t => (1 - θ) * I t + θ * J t) (fun t => (1 - θ) * W t + θ * Z t) where
  start := by
    simp only [h.start, k.start]
    ring
  stop := by
    simp only [h.stop, k.stop]
    ring
  continuous := (continuousOn_const.mul h.continuous).add (continuousOn_const.mul k.continuous)
  law := fun t ht => (((h.law t ht).const_mul (1 - θ)).add ((k.law t ht).const_mul θ)).congr_deriv (by ring)
  measurable := (h.measurable.const_mul (1 - θ)).add (k.measurable.const_mul θ)
  bounds := fun t ht => by
    have a := h.bounds t ht
    have b := k.bounds t ht
    constructor <;> nlinarith

theorem outlay_mix {R L i₀ m M : ℝ} {I W J Z : ℝ → ℝ} (h : Charges R L i₀ m M I W) (k : Charges R L i₀ m M J Z) {θ α β : ℝ} (h0 : 0 ≤ θ) (h1 : θ ≤ 1)
    (hα : 0 ≤ α) (hβ : 0 ≤ β) : outlay α β i₀ (fun t => (1 - θ) * I t + θ * J t) (fun t => (1 - θ) * W t + θ * Z t) ≤
      (1 - θ) * outlay α β i₀ I W + θ * outlay α β i₀ J Z := by
  rw [outlay, outlay, outlay, ← intervalIntegral.integral_const_mul, ← intervalIntegral.integral_const_mul,
    ← intervalIntegral.integral_add ((h.summable hα β).const_mul _) ((k.summable hα β).const_mul _)]
  refine intervalIntegral.integral_mono_on zero_le_one ((h.mix k h0 h1).summable hα β)
    (((h.summable hα β).const_mul _).add ((k.summable hα β).const_mul _)) fun t _ => ?_
  have q : ∀ a b : ℝ, ((1 - θ) * a + θ * b) ^ 2 ≤ (1 - θ) * a ^ 2 + θ * b ^ 2 := by
    intro a b
    nlinarith [mul_nonneg (mul_nonneg h0 (sub_nonneg.2 h1)) (sq_nonneg (a - b))]
  have q1 := mul_le_mul_of_nonneg_left (q (W t) (Z t)) hα
  have q2 := mul_le_mul_of_nonneg_left (q (I t - i₀) (J t - i₀)) hβ
  have e1 : (1 - θ) * (I t - i₀) + θ * (J t - i₀) = (1 - θ) * I t + θ * J t - i₀ := by ring
  rw [e1] at q2
  linarith

theorem Charges.apart {R L i₀ m M : ℝ} {I W J Z : ℝ → ℝ} (h : Charges R L i₀ m M I W) (k : Charges R L i₀ m M J Z) :
    IntervalIntegrable (fun t => (W t - Z t) ^ 2) MeasureTheory.volume 0 1 := by
  rw [intervalIntegrable_iff_integrableOn_Icc_of_le zero_le_one]
  refine MeasureTheory.Integrable.of_bound (C := (M - m) ^ 2) ((h.measurable.sub k.measurable).pow 2) ?_
  refine (MeasureTheory.ae_restrict_iff' measurableSet_Icc).2 (Filter.Eventually.of_forall fun t ht => ?_)
  have a := h.bounds t ht
  have b := k.bounds t ht
  rw [Real.norm_eq_abs, abs_of_nonneg (sq_nonneg _)]
  exact sq_le_sq' (by linarith) (by linarith)

/-- The mean of two voltages costs less than the mean of their costs, by a multiple of the square of their distance. -/
theorem outlay_mean {R L i₀ m M : ℝ} {I W J Z : ℝ → ℝ} (h : Charges R L i₀ m M I W) (k : Charges R L i₀ m M J Z) {α β : ℝ}
    (hα : 0 ≤ α) (hβ : 0 ≤ β) : outlay α β i₀ (fun t => (1 - 1 / 2) * I t + 1 / 2 * J t) (fun t => (1 - 1 / 2) * W t + 1 / 2 * Z t) +
      α / 8 * ∫ t in (0 : ℝ)..1, (W t - Z t) ^ 2 ≤ 1 / 2 * outlay α β i₀ I W + 1 / 2 * outlay α β i₀ J Z := by
  have hm := (h.mix k (θ := 1 / 2) (by norm_num) (by norm_num)).summable hα β
  rw [outlay, outlay, outlay, ← intervalIntegral.integral_const_mul, ← intervalIntegral.integral_const_mul,
    ← intervalIntegral.integral_const_mul, ← intervalIntegral.integral_add ((h.summable hα β).const_mul _) ((k.summable hα β).const_mul _),
    ← intervalIntegral.integral_add hm ((h.apart k).const_mul _)]
  refine intervalIntegral.integral_mono_on zero_le_one (hm.add ((h.apart k).const_mul _))
    (((h.summable hα β).const_mul _).add ((k.summable hα β).const_mul _)) fun t _ => ?_
  nlinarith [mul_nonneg hβ (sq_nonneg (I t - J t))]

/-! ### Properties -/

/-- Whatever voltage within the bounds is compared, and however small an excess is allowed: if some voltage that keeps away from the bounds
reverses the current, all solutions of the circuit example with a small enough activator, one of whose voltages lies between the bounds, cost
at most so much more. -/
theorem C100_limit {S : Sympy} (hL : LuSound S) {o : Opts} {p' : Prob} (hm : o.momentumShift = true) (hd : o.method ≠ .other)
    (hS : o.controlMethod = .algebraic → SolveSound S) (h : indirect S o circuit = .ok p') {R L i₀ m M α β : ℝ} (hl : m < M) (hα : 0 < α)
    (hβ : 0 ≤ β) {I₀ W₀ : ℝ → ℝ} (h₀ : Charges R L i₀ m M I₀ W₀) {μ : ℝ} (hμ : 0 < μ)
    (room : ∀ t ∈ Set.Icc (0 : ℝ) 1, m + μ * (M - m) ≤ W₀ t ∧ W₀ t ≤ M - μ * (M - m)) {J Z : ℝ → ℝ} (hJ : Charges R L i₀ m M J Z)
    {δ : ℝ} (hδ : 0 < δ) :
    ∃ q, primal S circuit = .ok q ∧ ∃ e₀, 0 < e₀ ∧ ∀ U a b y pr k ρ s s', MappedBack S o circuit p' q U a b y pr k ρ s s' →
      ∀ e, s'.const = [m, M, i₀, R, L, α, β, e] → 0 < e → e ≤ e₀ → (∀ n l, s'.u = .rows n l → ∃ row ∈ l, ∃ v ∈ row, m < v ∧ v < M) →
      ∃ I W, Charges R L i₀ m M I W ∧ s'.y = .rows 1 (s'.t.map fun t => [I t]) ∧ s'.u = .rows 1 (s'.t.map fun t => [W t]) ∧
        outlay α β i₀ I W ≤ outlay α β i₀ J Z + δ := by
  obtain ⟨q, hq, key⟩ := C100_returned hL hm hd hS h
  obtain ⟨g, hg⟩ : ∃ g, g = |outlay α β i₀ I₀ W₀ - outlay α β i₀ J Z| := ⟨_, rfl⟩
  have g0 : 0 ≤ g := by
    rw [hg]
    exact abs_nonneg _
  obtain ⟨θ, hθ⟩ : ∃ θ, θ = min 1 (δ / (2 * (g + 1))) := ⟨_, rfl⟩
  have θ0 : 0 < θ := by
    rw [hθ]
    exact lt_min one_pos (by positivity)
  have θ1 : θ ≤ 1 := by
    rw [hθ]
    exact min_le_left _ _
  have θ2 : θ * g ≤ δ / 2 := by
    have : θ ≤ δ / (2 * (g + 1)) := by
      rw [hθ]
      exact min_le_right _ _
    rw [le_div_iff₀ (by positivity)] at this
    nlinarith
  refine ⟨q, hq, θ * μ * δ, by positivity, ?_⟩
  intro U a b y pr k ρ s s' hr e hk he hle hin
  obtain ⟨I, W, r1, -, -, -, r5, r6, r7⟩ := key U a b y pr k ρ s s' hr m M i₀ R L α β e hk hl hα hβ he hin
  refine ⟨I, W, r1, r5, r6, ?_⟩
  have k1 := r7 _ _ (θ * μ) (by positivity) (hJ.mix h₀ θ0.le θ1) (by
    intro t ht
    have a := hJ.bounds t ht
    have b := room t ht
    have a1 := mul_le_mul_of_nonneg_left a.1 (sub_nonneg.2 θ1)
    have a2 := mul_le_mul_of_nonneg_left a.2 (sub_nonneg.2 θ1)
    have b1 := mul_le_mul_of_nonneg_left b.1 θ0.le
    have b2 := mul_le_mul_of_nonneg_left b.2 θ0.le
    constructor <;> nlinarith)
  have k2 := outlay_mix hJ h₀ (α := α) (β := β) θ0.le θ1 hα.le hβ
  have k3 : e / (2 * (θ * μ)) ≤ δ / 2 := by
    rw [div_le_iff₀ (by positivity)]
    linarith
  have k4 : θ * (outlay α β i₀ I₀ W₀ - outlay α β i₀ J Z) ≤ θ * g := by
    rw [hg]
    exact mul_le_mul_of_nonneg_left (le_abs_self _) θ0.le
  linarith

/-- If the cost has a least value within the bounds, the continuation converges to where it is attained: all solutions of the circuit example
with a small enough activator, one of whose voltages lies between the bounds, are as close to it as asked for, in the mean square. -/
theorem C100_converges {S : Sympy} (hL : LuSound S) {o : Opts} {p' : Prob} (hm : o.momentumShift = true) (hd : o.method ≠ .other)
    (hS : o.controlMethod = .algebraic → SolveSound S) (h : indirect S o circuit = .ok p') {R L i₀ m M α β : ℝ} (hl : m < M) (hα : 0 < α)
    (hβ : 0 ≤ β) {I₀ W₀ : ℝ → ℝ} (h₀ : Charges R L i₀ m M I₀ W₀) {μ : ℝ} (hμ : 0 < μ)
    (room : ∀ t ∈ Set.Icc (0 : ℝ) 1, m + μ * (M - m) ≤ W₀ t ∧ W₀ t ≤ M - μ * (M - m)) {J Z : ℝ → ℝ} (hJ : Charges R L i₀ m M J Z)
    (best : ∀ I W, Charges R L i₀ m M I W → outlay α β i₀ J Z ≤ outlay α β i₀ I W) {δ : ℝ} (hδ : 0 < δ) :
    ∃ q, primal S circuit = .ok q ∧ ∃ e₀, 0 < e₀ ∧ ∀ U a b y pr k ρ s s', MappedBack S o circuit p' q U a b y pr k ρ s s' →
      ∀ e, s'.const = [m, M, i₀, R, L, α, β, e] → 0 < e → e ≤ e₀ → (∀ n l, s'.u = .rows n l → ∃ row ∈ l, ∃ v ∈ row, m < v ∧ v < M) →
      ∃ I W, Charges R L i₀ m M I W ∧ s'.y = .rows 1 (s'.t.map fun t => [I t]) ∧ s'.u = .rows 1 (s'.t.map fun t => [W t]) ∧
        ∫ t in (0 : ℝ)..1, (W t - Z t) ^ 2 ≤ δ := by
  obtain ⟨q, hq, e₀, he₀, key⟩ := C100_limit hL hm hd hS h hl hα hβ h₀ hμ room hJ (δ := α * δ / 4) (by positivity)
  refine ⟨q, hq, e₀, he₀, ?_⟩
  intro U a b y pr k ρ s s' hr e hk he hle hin
  obtain ⟨I, W, r1, r2, r3, r4⟩ := key U a b y pr k ρ s s' hr e hk he hle hin
  refine ⟨I, W, r1, r2, r3, ?_⟩
  have k1 := outlay_mean r1 hJ hα.le hβ
  have k2 := best _ _ (r1.mix hJ (θ := 1 / 2) (by norm_num) (by norm_num))
  have k3 : α * ∫ t in (0 : ℝ)..1, (W t - Z t) ^ 2 ≤ α * δ := by linarith
  exact le_of_mul_le_mul_left k3 hα

/-- The voltages that the theorem speaks of exist for the constants of the example. -/
example : ∃ J Z, Charges 145 3.5 1 (-300) 300 J Z ∧ ∀ t ∈ Set.Icc (0 : ℝ) 1, -300 + 1 / 4 * (300 - -300) ≤ Z t ∧ Z t ≤ 300 - 1 / 4 * (300 - -300) :=
  circuit_steady

/-- The least cost is attained, for instance, in a circuit without resistance if only the voltage costs: by the constant voltage. -/
example : Charges 0 1 1 (-3) 3 (fun t => 2 * t - 1) (fun _ => 2) ∧ ∀ I W, Charges 0 1 1 (-3) 3 I W →
    outlay 1 0 1 (fun t => 2 * t - 1) (fun _ => 2) ≤ outlay 1 0 1 I W := by
  have c : Charges 0 1 1 (-3) 3 (fun t => 2 * t - 1) (fun _ => 2) := by
    refine ⟨by norm_num, by norm_num, Continuous.continuousOn (by fun_prop), fun t _ => ?_, MeasureTheory.aestronglyMeasurable_const,
      fun t _ => by norm_num⟩
    exact ((((hasDerivAt_id t).const_mul 2).sub_const 1).hasDerivWithinAt).congr_deriv (by norm_num)
  refine ⟨c, fun I W h => ?_⟩
  have hW : IntervalIntegrable W MeasureTheory.volume 0 1 := by
    rw [intervalIntegrable_iff_integrableOn_Icc_of_le zero_le_one]
    refine MeasureTheory.Integrable.of_bound (C := 3) h.measurable ?_
    exact (MeasureTheory.ae_restrict_iff' measurableSet_Icc).2 (Filter.Eventually.of_forall fun t ht => abs_le.2 (h.bounds t ht))
  have total : ∫ t in (0 : ℝ)..1, W t = 2 := by
    rw [intervalIntegral.integral_eq_sub_of_hasDeriv_right_of_le zero_le_one h.continuous (fun t ht => (h.law t ht).congr_deriv (by ring)) hW,
      h.start, h.stop]
    norm_num
  have least : ∫ t in (0 : ℝ)..1, (2 * W t - 2) ≤ outlay 1 0 1 I W :=
    intervalIntegral.integral_mono_on zero_le_one ((hW.const_mul 2).sub (intervalIntegrable_const)) (h.summable zero_le_one 0) fun t _ => by
      nlinarith [sq_nonneg (W t - 2)]
  rw [intervalIntegral.integral_sub (hW.const_mul 2) intervalIntegrable_const, intervalIntegral.integral_const_mul, total] at least
  have own : outlay 1 0 1 (fun t => 2 * t - 1) (fun _ => 2) = 2 := by
    simp [outlay]
    norm_num
  rw [own]
  refine le_trans ?_ least
  simp
  norm_num

end Beluga.E2E
