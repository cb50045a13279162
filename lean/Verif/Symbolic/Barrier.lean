import Verif.Symbolic.Spec
import Mathlib.Order.Filter.AtTopBot.Field
import Mathlib.Analysis.SpecialFunctions.Trigonometric.Basic
import Mathlib.Analysis.Convex.SpecificFunctions.Deriv
import Mathlib.Analysis.Convex.Mul
import Mathlib.Analysis.SpecialFunctions.Trigonometric.Bounds

/-! # The penalty of UTM is a barrier -/

namespace Beluga.Sym

open Expr Filter Topology

/-- The value of the penalty term. -/
noncomputable def utmValue (a lo hi x : ℝ) : ℝ :=
  a * (1 / Real.cos (Real.pi / 2 * (2 * x - hi - lo) / (hi - lo)) - 1)

theorem eval_utmTerm (U : Name → Nat → ℝ → ℝ) (ρ : Name → ℝ) (a e lo hi : Expr) :
    eval (real U) ρ (utmTerm a e lo hi) =
      utmValue (eval (real U) ρ a) (eval (real U) ρ lo) (eval (real U) ρ hi) (eval (real U) ρ e) := by
  have e1 : eval (real U) ρ (fn .cos (Expr.pi / 2 * (2 * e - hi - lo) / (hi - lo))) =
      Real.cos (eval (real U) ρ (Expr.pi / 2 * (2 * e - hi - lo) / (hi - lo))) := rfl
  have e2 : eval (real U) ρ Expr.pi = Real.pi := rfl
  simp only [utmTerm, utmValue, eval_mul, eval_sub, eval_div, eval_one, e1, e2, eval_two]

theorem convex_utmValue {a lo hi : ℝ} (ha : 0 < a) (h : lo < hi) : ConvexOn ℝ (Set.Ioo lo hi) (utmValue a lo hi) := by
  have hd : 0 < hi - lo := by linarith
  have hp := Real.pi_pos
  set θ : ℝ → ℝ := fun x => Real.pi / 2 * (2 * x - hi - lo) / (hi - lo) with hθ
  have hin : ∀ x ∈ Set.Ioo lo hi, θ x ∈ Set.Ioo (-(Real.pi / 2)) (Real.pi / 2) := by
    intro x hx
    constructor
    · simp only [hθ]; rw [lt_div_iff₀ hd]; nlinarith [hx.1]
    · simp only [hθ]; rw [div_lt_iff₀ hd]; nlinarith [hx.2]
  have hcos : ∀ x ∈ Set.Ioo lo hi, 0 < Real.cos (θ x) := fun x hx => Real.cos_pos_of_mem_Ioo (hin x hx)
  refine ⟨convex_Ioo lo hi, fun x hx y hy α β hα hβ hαβ => ?_⟩
  have hxy := convex_Ioo lo hi hx hy hα hβ hαβ
  have e : θ (α • x + β • y) = α • θ x + β • θ y := by
    simp only [hθ, smul_eq_mul]
    have : α = 1 - β := by linarith
    subst this
    field_simp
    ring
  have h1 := strictConcaveOn_cos_Icc.concaveOn.2 (Set.Ioo_subset_Icc_self (hin x hx)) (Set.Ioo_subset_Icc_self (hin y hy)) hα hβ hαβ
  rw [← e] at h1
  have h2 := (convexOn_zpow (𝕜 := ℝ) (-1)).2 (hcos x hx) (hcos y hy) hα hβ hαβ
  simp only [zpow_neg, zpow_one] at h2
  have h3 : 0 < α • Real.cos (θ x) + β • Real.cos (θ y) := by
    have := (convex_Ioi (0 : ℝ)) (hcos x hx) (hcos y hy) hα hβ hαβ
    exact this
  have h4 := inv_anti₀ h3 h1
  simp only [utmValue, smul_eq_mul, one_div] at h2 h4 ⊢
  change a * ((Real.cos (θ (α * x + β * y)))⁻¹ - 1) ≤ α * (a * ((Real.cos (θ x))⁻¹ - 1)) + β * (a * ((Real.cos (θ y))⁻¹ - 1))
  have h5 := h4.trans h2
  have : α * (a * ((Real.cos (θ x))⁻¹ - 1)) + β * (a * ((Real.cos (θ y))⁻¹ - 1)) =
      a * (α * (Real.cos (θ x))⁻¹ + β * (Real.cos (θ y))⁻¹ - 1) := by
    have : α = 1 - β := by linarith
    subst this
    ring
  rw [this]
  exact mul_le_mul_of_nonneg_left (by linarith) ha.le

theorem isBarrier_utmValue {a lo hi : ℝ} (ha : 0 < a) (h : lo < hi) : IsBarrier lo hi (utmValue a lo hi) := by
  have hd : 0 < hi - lo := by linarith
  set θ : ℝ → ℝ := fun x => Real.pi / 2 * (2 * x - hi - lo) / (hi - lo) with hθ
  have hU : ∀ x, utmValue a lo hi x = a * (1 / Real.cos (θ x) - 1) := fun _ => rfl
  have hp := Real.pi_pos
  have mono : StrictMono θ := by
    intro x y hxy
    simp only [hθ]
    rw [div_lt_div_iff_of_pos_right hd]
    nlinarith
  have θmid : θ ((lo + hi) / 2) = 0 := by simp only [hθ]; rw [div_eq_zero_iff]; left; ring
  have θhi : θ hi = Real.pi / 2 := by simp only [hθ]; field_simp; ring
  have θlo : θ lo = -(Real.pi / 2) := by simp only [hθ]; field_simp; ring
  have cpos : ∀ x, lo < x → x < hi → 0 < Real.cos (θ x) := fun x h1 h2 =>
    Real.cos_pos_of_mem_Ioo ⟨by rw [← θlo]; exact mono h1, by rw [← θhi]; exact mono h2⟩
  have cont : Continuous fun x => Real.cos (θ x) := by
    simp only [hθ]; fun_prop
  have blow : ∀ (b : ℝ) (l : Filter ℝ), l ≤ 𝓝 b → Real.cos (θ b) = 0 → (∀ᶠ x in l, 0 < Real.cos (θ x)) →
      Tendsto (utmValue a lo hi) l atTop := by
    intro b l hl hb hpos
    have h1 : Tendsto (fun x => Real.cos (θ x)) l (𝓝[>] 0) := by
      apply tendsto_nhdsWithin_of_tendsto_nhds_of_eventually_within
      · have := (cont.tendsto b).mono_left hl
        rwa [hb] at this
      · exact hpos
    have h2 : Tendsto (fun x => (Real.cos (θ x))⁻¹) l atTop := tendsto_inv_nhdsGT_zero.comp h1
    have h3 : Tendsto (fun x => (Real.cos (θ x))⁻¹ + (-1)) l atTop := tendsto_atTop_add_const_right _ _ h2
    have h4 := h3.const_mul_atTop ha
    refine h4.congr fun x => ?_
    rw [hU, one_div, sub_eq_add_neg]
  refine ⟨?_, ?_, ?_, ?_, ?_, ?_, convex_utmValue ha h⟩
  · rw [hU, θmid]; simp
  · intro x h1 h2
    rw [hU]
    have := cpos x h1 h2
    have : 1 ≤ 1 / Real.cos (θ x) := by
      rw [le_div_iff₀ this, one_mul]; exact Real.cos_le_one _
    exact mul_nonneg ha.le (by linarith)
  · intro x hx y hy hxy
    rw [hU, hU]
    have mid : lo < (lo + hi) / 2 := by linarith
    have cy := cpos y (by linarith [hx.1]) hy.2
    have hc : Real.cos (θ y) < Real.cos (θ x) := by
      apply Real.strictAntiOn_cos _ _ (mono hxy)
      · exact ⟨by rw [← θmid]; exact mono.monotone hx.1, by have := mono hx.2; rw [θhi] at this; linarith⟩
      · exact ⟨by rw [← θmid]; exact mono.monotone hy.1, by have := mono hy.2; rw [θhi] at this; linarith⟩
    have := one_div_lt_one_div_of_lt cy hc
    exact mul_lt_mul_of_pos_left (by linarith) ha
  · intro x hx y hy hxy
    rw [hU, hU]
    have mid : (lo + hi) / 2 < hi := by linarith
    have cx := cpos x hx.1 (by linarith [hx.2])
    have hc : Real.cos (θ x) < Real.cos (θ y) := by
      rw [← Real.cos_neg (θ x), ← Real.cos_neg (θ y)]
      apply Real.strictAntiOn_cos _ _ (neg_lt_neg (mono hxy))
      · exact ⟨by have := mono.monotone hy.2; rw [θmid] at this; linarith,
          by have := mono hy.1; rw [θlo] at this; linarith⟩
      · exact ⟨by have := mono.monotone hx.2; rw [θmid] at this; linarith,
          by have := mono hx.1; rw [θlo] at this; linarith⟩
    have := one_div_lt_one_div_of_lt cx hc
    exact mul_lt_mul_of_pos_left (by linarith) ha
  · apply blow hi _ nhdsWithin_le_nhds
    · rw [θhi]; exact Real.cos_pi_div_two
    · have : Set.Ioo lo hi ∈ 𝓝[<] hi := Ioo_mem_nhdsLT h
      filter_upwards [this] with x hx
      exact cpos x hx.1 hx.2
  · apply blow lo _ nhdsWithin_le_nhds
    · rw [θlo, Real.cos_neg]; exact Real.cos_pi_div_two
    · have : Set.Ioo lo hi ∈ 𝓝[>] lo := Ioo_mem_nhdsGT h
      filter_upwards [this] with x hx
      exact cpos x hx.1 hx.2

theorem barriers_utmValue : Barriers utmValue where
  secant _ _ _ _ := rfl
  barrier _ _ _ ha h := isBarrier_utmValue ha h
  linear a lo hi x := by simp only [utmValue, one_mul]
  bound a lo hi μ x ha h hμ h1 h2 := by
    have hd : 0 < hi - lo := by linarith
    have hhalf : μ ≤ 1 / 2 := by
      by_contra hc
      nlinarith
    obtain ⟨v, hv⟩ : ∃ v, v = (2 * x - hi - lo) / (hi - lo) := ⟨_, rfl⟩
    have hv1 : |v| ≤ 1 - 2 * μ := by
      rw [hv, abs_le, le_div_iff₀ hd, div_le_iff₀ hd]
      constructor <;> nlinarith
    have hcos : 2 * μ ≤ Real.cos (Real.pi / 2 * v) := by
      have e : Real.cos (Real.pi / 2 * v) = Real.sin (Real.pi / 2 * (1 - |v|)) := by
        rw [← Real.cos_abs, abs_mul, abs_of_pos (by positivity : 0 < Real.pi / 2), ← Real.sin_pi_div_two_sub]
        congr 1
        ring
      rw [e]
      have h3 : 0 ≤ Real.pi / 2 * (1 - |v|) := mul_nonneg (by positivity) (by linarith)
      have h4 : Real.pi / 2 * (1 - |v|) ≤ Real.pi / 2 := by
        have := abs_nonneg v
        have hp : 0 < Real.pi / 2 := by positivity
        nlinarith
      refine le_trans ?_ (Real.mul_le_sin h3 h4)
      have : 2 / Real.pi * (Real.pi / 2 * (1 - |v|)) = 1 - |v| := by
        have := Real.pi_ne_zero
        field_simp
      rw [this]
      linarith
    have hpos : 0 < 2 * μ := by linarith
    have e : Real.pi / 2 * (2 * x - hi - lo) / (hi - lo) = Real.pi / 2 * v := by rw [hv]; ring
    rw [utmValue, e]
    have h5 : 1 / Real.cos (Real.pi / 2 * v) ≤ 1 / (2 * μ) := one_div_le_one_div_of_le hpos hcos
    have h6 : 1 / Real.cos (Real.pi / 2 * v) - 1 ≤ 1 / (2 * μ) := by linarith
    calc a * (1 / Real.cos (Real.pi / 2 * v) - 1) ≤ a * (1 / (2 * μ)) := mul_le_mul_of_nonneg_left h6 ha
      _ = a / (2 * μ) := by ring

end Beluga.Sym
