import Mathlib.Analysis.Calculus.IteratedDeriv.Defs
import Mathlib.Analysis.Complex.RealDeriv
import Mathlib.Analysis.SpecialFunctions.ExpDeriv
import Mathlib.Analysis.SpecialFunctions.Complex.Analytic
import Verif.ComplexStep.Model

/-! # Complex-step derivatives (C67) -/

namespace Beluga.Csd

open Filter Topology Asymptotics

/-! ### Specification -/

/-- `f` is an analytic extension of the real function `g` around `x`. -/
def Extends (f : ℂ → ℂ) (g : ℝ → ℝ) (x : ℝ) : Prop := AnalyticAt ℂ f x ∧ ∀ᶠ t : ℝ in 𝓝 x, f t = g t

/-! ### Lemmas -/

theorem tendsto_ofReal (x : ℝ) : Tendsto (fun t : ℝ => (t : ℂ)) (𝓝 x) (𝓝 (x : ℂ)) := Complex.continuous_ofReal.continuousAt

theorem hasDerivAt_of_extends {f : ℂ → ℂ} {g : ℝ → ℝ} {x : ℝ} (h : Extends f g x) :
    deriv f x = ((deriv g x : ℝ) : ℂ) := by
  have h1 : HasDerivAt (fun t : ℝ => f t) (deriv f x) x := h.1.differentiableAt.hasDerivAt.comp_ofReal
  have h2 : HasDerivAt (fun t : ℝ => ((g t : ℝ) : ℂ)) (deriv f x) x := h1.congr_of_eventuallyEq (h.2.mono fun _ h => h.symm)
  have h3 : HasDerivAt g (deriv f x).re x := by
    have := (Complex.reCLM.hasFDerivAt.comp_hasDerivAt x h2)
    simpa [Function.comp_def] using this
  have h4 : (deriv f x).im = 0 := by
    have := (Complex.imCLM.hasFDerivAt.comp_hasDerivAt x h2)
    have h5 : HasDerivAt (fun _ : ℝ => (0 : ℝ)) (deriv f x).im x := by simpa [Function.comp_def] using this
    exact h5.unique (hasDerivAt_const x 0)
  rw [h3.deriv]
  exact Complex.ext (by simp) (by simp [h4])

theorem extends_deriv {f : ℂ → ℂ} {g : ℝ → ℝ} {x : ℝ} (h : Extends f g x) : Extends (deriv f) (deriv g) x := by
  refine ⟨h.1.deriv, ?_⟩
  have h1 : ∀ᶠ t : ℝ in 𝓝 x, AnalyticAt ℂ f t := (tendsto_ofReal x).eventually h.1.eventually_analyticAt
  filter_upwards [h1, h.2.eventually_nhds] with t ht1 ht2
  exact hasDerivAt_of_extends ⟨ht1, ht2⟩

/-- Taylor's formula to second order with real coefficients. -/
theorem taylor {f : ℂ → ℂ} {g : ℝ → ℝ} {x : ℝ} (h : Extends f g x) :
    (fun z : ℂ => f (x + z) - (g x + (deriv g x : ℝ) * z + (deriv (deriv g) x : ℝ) / 2 * z ^ 2)) =O[𝓝 0] fun z => ‖z‖ ^ 3 := by
  have := h.1.hasFPowerSeriesAt.isBigO_sub_partialSum_pow 3
  refine this.congr_left fun z => ?_
  have e0 : f x = g x := h.2.self_of_nhds
  have e1 := hasDerivAt_of_extends h
  have e2 := hasDerivAt_of_extends (extends_deriv h)
  simp [FormalMultilinearSeries.partialSum, Finset.sum_range_succ, iteratedDeriv_succ, e0, e1, e2]
  ring

/-! ### Properties -/

/-- First derivatives: the error is quadratic in the step. -/
theorem C67_first {f : ℂ → ℂ} {g : ℝ → ℝ} {x : ℝ} (h : Extends f g x) :
    (fun s : ℝ => csd1 f s x - deriv g x) =O[𝓝[≠] 0] fun s => s ^ 2 := by
  have h0 : Tendsto (fun s : ℝ => (s : ℂ) * Complex.I) (𝓝[≠] 0) (𝓝 0) := by
    have : ContinuousAt (fun s : ℝ => (s : ℂ) * Complex.I) 0 := by fun_prop
    simpa using this.tendsto.mono_left nhdsWithin_le_nhds
  obtain ⟨C, hC⟩ := ((taylor h).comp_tendsto h0).bound
  refine IsBigO.of_bound C ?_
  filter_upwards [hC, self_mem_nhdsWithin] with s hs hne
  have hne : s ≠ 0 := hne
  have e : csd1 f s x - deriv g x = (f (x + s * Complex.I) - (g x + (deriv g x : ℝ) * (s * Complex.I) +
      (deriv (deriv g) x : ℝ) / 2 * (s * Complex.I) ^ 2)).im / s := by
    have : ((s : ℂ) * Complex.I) ^ 2 = ((-s ^ 2 : ℝ) : ℂ) := by
      rw [mul_pow, Complex.I_sq]; push_cast; ring
    rw [csd1, this]
    have h2 : ((deriv (deriv g) x : ℝ) : ℂ) / 2 * ((-s ^ 2 : ℝ) : ℂ) = ((deriv (deriv g) x / 2 * -s ^ 2 : ℝ) : ℂ) := by
      push_cast; ring
    rw [h2]
    simp only [Complex.sub_im, Complex.add_im, Complex.ofReal_im, Complex.mul_im, Complex.I_re, Complex.I_im, Complex.ofReal_re]
    field_simp
    ring
  rw [e, norm_div, Real.norm_eq_abs, Real.norm_eq_abs, Real.norm_eq_abs]
  simp only [Function.comp_apply, norm_mul, Complex.norm_real, Complex.norm_I, mul_one, norm_pow, Real.norm_eq_abs, abs_abs] at hs
  rw [div_le_iff₀ (abs_pos.2 hne), abs_pow]
  calc _ ≤ _ := Complex.abs_im_le_norm _
    _ ≤ _ := hs
    _ = _ := by ring

/-- Second derivatives: the error is linear in the step. -/
theorem C67_second {f : ℂ → ℂ} {g : ℝ → ℝ} {x : ℝ} (h : Extends f g x) :
    (fun s : ℝ => csd2 g f s x - deriv (deriv g) x) =O[𝓝[≠] 0] fun s => s := by
  set k : ℝ := √(3 + 2 * √2) with hk
  have hkpos : 0 < k := Real.sqrt_pos.2 (by positivity)
  have h0 : Tendsto (fun s : ℝ => (s : ℂ) - (k * s : ℝ) * Complex.I) (𝓝[≠] 0) (𝓝 0) := by
    have : ContinuousAt (fun s : ℝ => (s : ℂ) - (k * s : ℝ) * Complex.I) 0 := by fun_prop
    simpa using this.tendsto.mono_left nhdsWithin_le_nhds
  have h1 : Tendsto (fun s : ℝ => (s : ℂ)) (𝓝[≠] 0) (𝓝 0) := by
    have : ContinuousAt (fun s : ℝ => (s : ℂ)) 0 := by fun_prop
    simpa using this.tendsto.mono_left nhdsWithin_le_nhds
  obtain ⟨C, hC⟩ := ((taylor h).comp_tendsto h0).bound
  obtain ⟨D, hD⟩ := ((taylor h).comp_tendsto h1).bound
  have hev : ∀ᶠ s : ℝ in 𝓝[≠] 0, f ((x + s : ℝ) : ℂ) = g (x + s) := by
    have : Tendsto (fun s : ℝ => x + s) (𝓝[≠] 0) (𝓝 x) := by
      have : ContinuousAt (fun s : ℝ => x + s) 0 := by fun_prop
      simpa using this.tendsto.mono_left nhdsWithin_le_nhds
    exact this.eventually h.2
  refine IsBigO.of_bound (2 * (D + |C| * (1 + k) ^ 3) / k ^ 2) ?_
  filter_upwards [hC, hD, hev, self_mem_nhdsWithin] with s hs1 hs2 hs3 hne
  have hne : s ≠ 0 := hne
  set A := f (x + (s - (k * s : ℝ) * Complex.I)) - (g x + (deriv g x : ℝ) * (s - (k * s : ℝ) * Complex.I) +
      (deriv (deriv g) x : ℝ) / 2 * (s - (k * s : ℝ) * Complex.I) ^ 2) with hA
  set B := f (x + s) - (g x + (deriv g x : ℝ) * s + (deriv (deriv g) x : ℝ) / 2 * (s : ℂ) ^ 2) with hB
  have hB' : B.re = g (x + s) - (g x + deriv g x * s + deriv (deriv g) x / 2 * s ^ 2) := by
    have : (x : ℂ) + s = ((x + s : ℝ) : ℂ) := by push_cast; rfl
    rw [hB, this, hs3]
    have : ((g (x + s) : ℝ) : ℂ) - (g x + (deriv g x : ℝ) * s + (deriv (deriv g) x : ℝ) / 2 * (s : ℂ) ^ 2) =
      ((g (x + s) - (g x + deriv g x * s + deriv (deriv g) x / 2 * s ^ 2) : ℝ) : ℂ) := by push_cast; rfl
    rw [this, Complex.ofReal_re]
  have hA' : A.re = (f (x + s - (k * s : ℝ) * Complex.I)).re -
      (g x + deriv g x * s + deriv (deriv g) x / 2 * (s ^ 2 - (k * s) ^ 2)) := by
    have hsq : ((s : ℂ) - (k * s : ℝ) * Complex.I) ^ 2 = ((s ^ 2 - (k * s) ^ 2 : ℝ) : ℂ) - ((2 * s * (k * s) : ℝ) : ℂ) * Complex.I := by
      have := Complex.I_sq
      push_cast
      linear_combination ((k : ℂ) * s) ^ 2 * this
    have h2 : ((deriv (deriv g) x : ℝ) : ℂ) / 2 = ((deriv (deriv g) x / 2 : ℝ) : ℂ) := by push_cast; rfl
    rw [hA, hsq, h2, ← add_sub_assoc]
    simp only [Complex.sub_re, Complex.add_re, Complex.ofReal_re, Complex.mul_re, Complex.I_re, Complex.I_im, Complex.ofReal_im,
      Complex.sub_im, Complex.mul_im]
    ring
  have e : csd2 g f s x - deriv (deriv g) x = 2 * (B.re - A.re) / (k * s) ^ 2 := by
    rw [hA', hB', csd2, imStep, ← hk]
    field_simp
    ring
  have b1 : |A.re| ≤ |C| * (1 + k) ^ 3 * |s| ^ 3 := by
    refine (Complex.abs_re_le_norm _).trans ?_
    have h3 : ‖A‖ ≤ C * ‖(s : ℂ) - (k * s : ℝ) * Complex.I‖ ^ 3 := by simpa [hA] using hs1
    have h4 : ‖(s : ℂ) - (k * s : ℝ) * Complex.I‖ ≤ (1 + k) * |s| := by
      refine (norm_sub_le _ _).trans ?_
      simp only [norm_mul, Complex.norm_real, Complex.norm_I, Real.norm_eq_abs, abs_of_pos hkpos]
      exact le_of_eq (by ring)
    calc ‖A‖ ≤ C * ‖(s : ℂ) - (k * s : ℝ) * Complex.I‖ ^ 3 := h3
      _ ≤ |C| * ‖(s : ℂ) - (k * s : ℝ) * Complex.I‖ ^ 3 := by gcongr; exact le_abs_self C
      _ ≤ |C| * ((1 + k) * |s|) ^ 3 := by gcongr
      _ = _ := by ring
  have b2 : |B.re| ≤ D * |s| ^ 3 := by
    refine (Complex.abs_re_le_norm _).trans ?_
    simpa [hB] using hs2
  have hs : 0 < |s| := abs_pos.2 hne
  rw [e, Real.norm_eq_abs, Real.norm_eq_abs, abs_div, abs_mul, abs_pow, abs_mul, abs_of_pos hkpos, abs_two,
    div_le_iff₀ (by positivity)]
  have : |B.re - A.re| ≤ D * |s| ^ 3 + |C| * (1 + k) ^ 3 * |s| ^ 3 := (abs_sub _ _).trans (add_le_add b2 b1)
  calc 2 * |B.re - A.re| ≤ 2 * (D * |s| ^ 3 + |C| * (1 + k) ^ 3 * |s| ^ 3) := by gcongr
    _ = _ := by field_simp

/-- Both formulas are exact for quadratic functions, for every step. -/
theorem C67_quadratic (a b c s x : ℝ) (hs : s ≠ 0) :
    csd1 (fun z => a + b * z + c * z ^ 2) s x = b + 2 * c * x ∧
    csd2 (fun t => a + b * t + c * t ^ 2) (fun z => a + b * z + c * z ^ 2) s x = 2 * c := by
  constructor
  · simp only [csd1, pow_two, Complex.add_im, Complex.mul_im, Complex.add_re, Complex.mul_re, Complex.ofReal_re, Complex.ofReal_im,
      Complex.I_re, Complex.I_im]
    field_simp
    ring
  · have hk : 0 < √(3 + 2 * √2) := Real.sqrt_pos.2 (by positivity)
    simp only [csd2, imStep, pow_two, Complex.sub_im, Complex.sub_re, Complex.add_im, Complex.mul_im, Complex.add_re, Complex.mul_re,
      Complex.ofReal_re, Complex.ofReal_im, Complex.I_re, Complex.I_im]
    field_simp
    ring

/-- The error of the second derivative is not of higher order: for the cube it is six times the step. -/
theorem C67_sharp (s x : ℝ) (hs : s ≠ 0) : csd2 (fun t => t ^ 3) (fun z => z ^ 3) s x = 6 * x + 6 * s := by
  have hk : 0 < √(3 + 2 * √2) := Real.sqrt_pos.2 (by positivity)
  have h3 : ∀ z : ℂ, z ^ 3 = z * z * z := fun z => by ring
  simp only [csd2, imStep, h3, Complex.sub_im, Complex.sub_re, Complex.add_im, Complex.mul_im, Complex.add_re, Complex.mul_re,
    Complex.ofReal_re, Complex.ofReal_im, Complex.I_re, Complex.I_im]
  field_simp
  ring

/-- What `gen_num_diff(f, (n,), 'csd')` returns for a function of one argument: first derivatives with a fixed step, and second
derivatives whose error is linear in the step.  Missing from the full property: functions of several arguments
(`C67_violated_args`). -/
theorem C67_one_argument_partial {f : Fun} (h1 : f.argLen = 1) (hc : f.jit = ⟨true, true⟩) {x : ℝ}
    (h : Extends (fun z => f.im [z]) (fun t => f.re [t]) x) :
    (∀ step, numDiffCsd f [1] step [x] = .ok (csd1 (fun z => f.im [z]) tiny x)) ∧
    (fun s : ℝ => csd1 (fun z => f.im [z]) s x - deriv (fun t => f.re [t]) x) =O[𝓝[≠] 0] (fun s => s ^ 2) ∧
    ∃ v : ℝ → ℝ, (∀ step, numDiffCsd f [2] step [x] = .ok (v step)) ∧
      (fun s => v s - deriv (deriv fun t => f.re [t]) x) =O[𝓝[≠] 0] fun s => s := by
  refine ⟨fun step => ?_, C67_first h, fun s => csd2 (fun t => f.re [t]) (fun z => f.im [z]) (s * 10 ^ 2) x, fun step => ?_, ?_⟩
  · simp [numDiffCsd, genCsd, nonzero, List.range_succ, h1, hc]
  · simp [numDiffCsd, genCsd, nonzero, List.range_succ, h1, hc]
  · have ht : Tendsto (fun s : ℝ => s * 10 ^ 2) (𝓝[≠] 0) (𝓝[≠] 0) := by
      refine tendsto_nhdsWithin_iff.2 ⟨?_, ?_⟩
      · have : ContinuousAt (fun s : ℝ => s * 10 ^ 2) 0 := by fun_prop
        simpa using this.tendsto.mono_left nhdsWithin_le_nhds
      · filter_upwards [self_mem_nhdsWithin] with s hs
        exact mul_ne_zero hs (by norm_num)
    have := (C67_second h).comp_tendsto ht
    refine this.trans ?_
    refine IsBigO.of_bound 100 (Eventually.of_forall fun s => ?_)
    simp only [Function.comp_apply, norm_mul, Real.norm_eq_abs]
    norm_num
    exact le_of_eq (mul_comm _ _)

/-- The error of a first derivative at the step in use, from a bound on the remainder of Taylor's formula. -/
theorem C67_error {f : Fun} (h1 : f.argLen = 1) (hc : f.jit = ⟨true, true⟩) {x a b c C r : ℝ} (hr : 1 / 10 ^ 50 ≤ r)
    (h : ∀ z : ℂ, ‖z‖ ≤ r → ‖f.im [x + z] - (a + b * z + c * z ^ 2)‖ ≤ C * ‖z‖ ^ 3) (step : ℝ) :
    ∃ v, numDiffCsd f [1] step [x] = .ok v ∧ |v - b| ≤ C / 10 ^ 100 := by
  refine ⟨csd1 (fun z => f.im [z]) tiny x, by simp [numDiffCsd, genCsd, nonzero, List.range_succ, h1, hc], ?_⟩
  have ht : tiny = 1 / 10 ^ 50 := by simp [tiny]
  have hpos : 0 < tiny := by rw [ht]; positivity
  have hn : ‖(tiny : ℂ) * Complex.I‖ = tiny := by simp [abs_of_pos hpos]
  have hb := h (tiny * Complex.I) (by rw [hn, ht]; exact hr)
  rw [hn] at hb
  have e : csd1 (fun z => f.im [z]) tiny x - b =
      (f.im [x + tiny * Complex.I] - (a + b * (tiny * Complex.I) + c * (tiny * Complex.I) ^ 2)).im / tiny := by
    have e2 : ((c : ℂ) * (tiny * Complex.I) ^ 2).im = 0 := by
      rw [mul_pow, Complex.I_sq]
      have : (c : ℂ) * ((tiny : ℂ) ^ 2 * -1) = ((c * (tiny ^ 2 * -1) : ℝ) : ℂ) := by push_cast; ring
      rw [this, Complex.ofReal_im]
    rw [Complex.sub_im, Complex.add_im, Complex.add_im, e2, csd1]
    simp
    field_simp
  rw [e, abs_div, abs_of_pos hpos, div_le_iff₀ hpos]
  refine (Complex.abs_im_le_norm _).trans (hb.trans (le_of_eq ?_))
  rw [ht]
  ring

/-- Order zero is the function itself. -/
theorem C67_zero (f : Fun) {order : List Nat} (h : order.max? = some 0) (step : ℝ) (args : List ℝ) :
    numDiffCsd f order step args = .ok (f.re args) := by
  rw [numDiffCsd, h]
  rfl

example (step x : ℝ) : ∃ v, numDiffCsd ⟨1, fun l => l.headD 0 ^ 3, fun l => l.headD 0 ^ 3, ⟨true, true⟩⟩ [1] step [x] = .ok v ∧
    |v - 3 * x ^ 2| ≤ 1 / 10 ^ 100 := by
  refine C67_error rfl rfl (a := x ^ 3) (c := 3 * x) (r := 1) (by norm_num) (fun z _ => ?_) step
  rw [one_mul, ← norm_pow]
  apply le_of_eq
  congr 1
  simp
  ring

theorem mem_nonzero {order : List Nat} {i : Nat} : i ∈ nonzero order ↔ i < order.length ∧ order.getD i 0 ≠ 0 := by
  simp [nonzero]

theorem nonzero_ne_nil {order : List Nat} {n : Nat} (hn : order.max? = some n) (h0 : n ≠ 0) : nonzero order ≠ [] := by
  obtain ⟨i, hi, h⟩ := List.mem_iff_getElem.1 (List.max?_eq_some_iff.1 hn).1
  exact List.ne_nil_of_mem (mem_nonzero.2 ⟨hi, by simpa [List.getD_eq_getElem?_getD, hi, h] using h0⟩)

/-- Violation: orders that the method does not support should be computed by central differences; instead the call that reports this
fails. -/
theorem C67_violated_fallback (f : Fun) {order : List Nat} {n : Nat} (hn : order.max? = some n) (h : 2 < n ∨ 1 < (nonzero order).length)
    (step : ℝ) (args : List ℝ) : numDiffCsd f order step args = .error .attributeError := by
  have h0 : n ≠ 0 := by
    rintro rfl
    rcases h with h | h
    · omega
    · match hz : nonzero order with
      | [] => simp [hz] at h
      | i :: _ =>
        obtain ⟨hi, hne⟩ := mem_nonzero.1 (hz ▸ List.mem_cons_self : i ∈ nonzero order)
        refine hne (Nat.le_zero.1 ((List.max?_eq_some_iff.1 hn).2 _ ?_))
        rw [List.getD_eq_getElem?_getD, List.getElem?_eq_getElem hi]
        exact List.getElem_mem hi
  obtain ⟨m, rfl⟩ := Nat.exists_eq_succ_of_ne_zero h0
  simp only [numDiffCsd, hn, genCsd]
  by_cases h2 : m.succ > 2
  · rw [if_pos h2]
  · rw [if_neg h2]
    have h3 := h.resolve_left h2
    match hz : nonzero order with
    | [] => simp [hz] at h3
    | [_] => simp [hz] at h3
    | _ :: _ :: _ => rfl

/-- Violation: no derivative of a function of several arguments can be built. -/
theorem C67_violated_args (f : Fun) (h : 1 < f.argLen) {order : List Nat} {n : Nat} (hlen : order.length ≤ f.argLen)
    (hn : order.max? = some n) (h0 : n ≠ 0) (step : ℝ) (args : List ℝ) : numDiffCsd f order step args = .error .attributeError := by
  by_cases hf : 2 < n ∨ 1 < (nonzero order).length
  · exact C67_violated_fallback f hn hf step args
  · push Not at hf
    match hz : nonzero order with
    | [] => exact absurd hz (nonzero_ne_nil hn h0)
    | [i] =>
      have hi := (mem_nonzero.1 (hz ▸ List.mem_cons_self : i ∈ nonzero order)).1
      obtain ⟨m, rfl⟩ := Nat.exists_eq_succ_of_ne_zero h0
      simp only [numDiffCsd, hn, genCsd, hz]
      rw [if_neg (by omega), if_neg (by omega)]
      by_cases hu : f.jit.user
      · rw [if_neg (by simp [hu]), if_neg (by omega), if_neg (by omega)]
      · rw [if_pos (by simp [hu])]
    | _ :: _ :: _ => simp [hz] at hf

/-- Violation: a derivative with respect to a second argument that the function does not have is the derivative with respect to
the first; finite differences refuse it. -/
theorem C67_violated_index (f : Fun) (h : f.argLen = 1) (hc : f.jit = ⟨true, true⟩) (step x : ℝ) :
    numDiffCsd f [0, 1] step [x] = numDiffCsd f [1] step [x] ∧ FinDiff.numDiff f.jit f.re f.argLen [0, 1] .c_diff step [x] = .error .syntaxError := by
  constructor
  · simp [numDiffCsd, genCsd, nonzero, List.range_succ, h, hc]
  · simp [FinDiff.numDiff, FinDiff.finDiff, h]
    rfl

example (step : ℝ) (args : List ℝ) : numDiffCsd ⟨2, List.sum, List.sum, ⟨true, true⟩⟩ [0, 1] step args = .error .attributeError :=
  C67_violated_args _ (by decide) (by decide) (by decide : ([0, 1] : List Nat).max? = some 1) (by decide) step args

/-- The exponential function. -/
noncomputable def expFun : Fun := { argLen := 1, re := fun l => Real.exp (l.getD 0 0), im := fun l => Complex.exp (l.getD 0 0) }

example : Extends (fun z => expFun.im [z]) (fun t => expFun.re [t]) 1 :=
  ⟨analyticAt_cexp, Eventually.of_forall fun t => by simp [expFun]⟩

example : (fun s : ℝ => csd1 Complex.exp s 0 - 1) =O[𝓝[≠] 0] fun s => s ^ 2 := by
  have := C67_first (f := Complex.exp) (g := Real.exp) (x := 0) ⟨analyticAt_cexp, Eventually.of_forall fun t => by simp⟩
  simpa using this

end Beluga.Csd
