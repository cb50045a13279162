import Mathlib.Analysis.Convex.Deriv
import Mathlib.Analysis.SpecialFunctions.Trigonometric.Deriv
import Mathlib.MeasureTheory.Integral.IntervalIntegral.FundThmCalculus
import Mathlib.Analysis.SpecialFunctions.Pow.NNReal
import Verif.EndToEnd.Cycloid

/-!
# Crossing a current in the least time

The first-order conditions of Zermelo's problem with a current that depends on the distance from the shore, as real functions: they give
the fastest crossing.
-/

namespace Beluga.E2E

open Real

/-! ### Specification -/

/-- A crossing of a river of width `w` with the current `d` in the time `T` by a boat with speed `V`: it starts at the origin, stays between
the banks, and its heading is `Θ`. -/
structure Crosses (V : ℝ) (d : ℝ → ℝ) (w T : ℝ) (X Y Θ : ℝ → ℝ) : Prop where
  start : X 0 = 0 ∧ Y 0 = 0
  stop : X T = w
  between : ∀ t ∈ Set.Icc 0 T, 0 ≤ X t ∧ X t ≤ w
  continuous : ContinuousOn X (Set.Icc 0 T) ∧ ContinuousOn Y (Set.Icc 0 T)
  motion : ∀ t ∈ Set.Ioo 0 T, HasDerivAt X (V * cos (Θ t)) t ∧ HasDerivAt Y (V * sin (Θ t) + d (X t)) t

/-! ### Lemmas -/

/-- The part of the travel time that belongs to the distance from the shore. -/
noncomputable def crossTime (V k : ℝ) (d : ℝ → ℝ) (x : ℝ) : ℝ := ∫ s in (0 : ℝ)..x, √(((1 + k * d s) / V) ^ 2 - k ^ 2)

theorem crossTime_zero (V k : ℝ) (d : ℝ → ℝ) : crossTime V k d 0 = 0 := intervalIntegral.integral_same

theorem crossTime_deriv {V k : ℝ} {d : ℝ → ℝ} (hd : Continuous d) (x : ℝ) :
    HasDerivAt (crossTime V k d) (√(((1 + k * d x) / V) ^ 2 - k ^ 2)) x := by
  have c : Continuous fun s => √(((1 + k * d s) / V) ^ 2 - k ^ 2) :=
    continuous_sqrt.comp ((((continuous_const.add (continuous_const.mul hd)).div_const V).pow 2).sub continuous_const)
  exact intervalIntegral.integral_hasDerivAt_right (c.intervalIntegrable _ _) (c.stronglyMeasurableAtFilter _ _) c.continuousAt

/-- Along every heading the travel time of the fastest crossing grows at most at rate one. -/
theorem heading_le {V k d θ : ℝ} (hV : 0 < V) (hk : |k| * V ≤ 1 + k * d) :
    √(((1 + k * d) / V) ^ 2 - k ^ 2) * (V * cos θ) - k * (V * sin θ + d) ≤ 1 := by
  obtain ⟨A, hA⟩ : ∃ A, A = (1 + k * d) / V := ⟨_, rfl⟩
  have hA2 : |k| ≤ A := by
    rw [hA, le_div_iff₀ hV]
    exact hk
  have hA0 : 0 ≤ A := (abs_nonneg k).trans hA2
  have hkA : k ^ 2 ≤ A ^ 2 := by
    rw [← sq_abs k]
    exact pow_le_pow_left₀ (abs_nonneg k) hA2 2
  have hVA : V * A = 1 + k * d := by
    rw [hA]
    field_simp
  rw [← hA]
  have hs : √(A ^ 2 - k ^ 2) ^ 2 = A ^ 2 - k ^ 2 := sq_sqrt (sub_nonneg.2 hkA)
  generalize √(A ^ 2 - k ^ 2) = R at *
  have h1 : R * cos θ - k * sin θ ≤ A := by
    refine le_of_sq_le_sq ?_ hA0
    have := sin_sq_add_cos_sq θ
    nlinarith [sq_nonneg (R * sin θ + k * cos θ)]
  have h2 := mul_le_mul_of_nonneg_left h1 hV.le
  linarith

/-- No crossing is faster than the travel time of the fastest one to the place where it lands. -/
theorem crossing_bound {V k w T : ℝ} {d : ℝ → ℝ} (hd : Continuous d) (hV : 0 < V) (hk : ∀ s ∈ Set.Icc 0 w, |k| * V ≤ 1 + k * d s)
    (hT : 0 ≤ T) {X Y Θ : ℝ → ℝ} (h : Crosses V d w T X Y Θ) : crossTime V k d w - k * Y T ≤ T := by
  have cD : ContinuousOn (fun t => t - (crossTime V k d (X t) - k * Y t)) (Set.Icc 0 T) := by
    have c : Continuous (crossTime V k d) := continuous_iff_continuousAt.2 fun x => (crossTime_deriv hd x).continuousAt
    exact continuousOn_id.sub ((c.comp_continuousOn h.continuous.1).sub (continuousOn_const.mul h.continuous.2))
  have dD : ∀ t ∈ Set.Ioo 0 T, HasDerivAt (fun t => t - (crossTime V k d (X t) - k * Y t))
      (1 - (√(((1 + k * d (X t)) / V) ^ 2 - k ^ 2) * (V * cos (Θ t)) - k * (V * sin (Θ t) + d (X t)))) t := by
    intro t ht
    obtain ⟨d1, d2⟩ := h.motion t ht
    exact (hasDerivAt_id t).sub ((HasDerivAt.comp t (crossTime_deriv hd (X t)) d1).sub (d2.const_mul k))
  have mono : MonotoneOn (fun t => t - (crossTime V k d (X t) - k * Y t)) (Set.Icc 0 T) := by
    refine monotoneOn_of_deriv_nonneg (convex_Icc 0 T) cD ?_ ?_
    · rw [interior_Icc]
      exact fun s hs => (dD s hs).differentiableAt.differentiableWithinAt
    · rw [interior_Icc]
      intro s hs
      rw [(dD s hs).deriv, sub_nonneg]
      exact heading_le hV (hk _ (h.between s ⟨hs.1.le, hs.2.le⟩))
  have := mono ⟨le_refl _, hT⟩ ⟨hT, le_refl _⟩ hT
  simp only [h.start.1, h.start.2, h.stop, crossTime_zero] at this
  linarith

/-- The first-order conditions of Zermelo's problem. -/
structure Steers (V : ℝ) (d : ℝ → ℝ) (w T k : ℝ) (x y θ lx : ℝ → ℝ) : Prop where
  start : x 0 = 0 ∧ y 0 = 0
  stop : x T = w
  east : ∀ t ∈ Set.Icc 0 T, HasDerivAt x (V * cos (θ t)) t
  north : ∀ t ∈ Set.Icc 0 T, HasDerivAt y (V * sin (θ t) + d (x t)) t
  smooth : ∀ t ∈ Set.Icc 0 T, DifferentiableAt ℝ θ t
  adjoint : ∀ t ∈ Set.Icc 0 T, ∃ D, HasDerivAt (fun z => k * d z) D (x t) ∧ HasDerivAt lx (-D) t
  stationary : ∀ t ∈ Set.Icc 0 T, -(lx t * sin (θ t)) + k * cos (θ t) = 0
  stops : 1 + lx T * (V * cos (θ T)) + k * (V * sin (θ T) + d (x T)) = 0

/-- The costates point along the heading, and their size is the inverse of the speed in that direction. -/
theorem Steers.heading {V w T k : ℝ} {d x y θ lx : ℝ → ℝ} (h : Steers V d w T k x y θ lx) (hT : 0 ≤ T) :
    ∀ t ∈ Set.Icc 0 T, ∃ m, lx t = m * cos (θ t) ∧ k = m * sin (θ t) ∧ 1 + m * (V + d (x t) * sin (θ t)) = 0 := by
  have m1 : T ∈ Set.Icc 0 T := ⟨hT, le_refl _⟩
  have dir : ∀ t ∈ Set.Icc 0 T, lx t = (lx t * cos (θ t) + k * sin (θ t)) * cos (θ t) ∧
      k = (lx t * cos (θ t) + k * sin (θ t)) * sin (θ t) := by
    intro t ht
    have s := h.stationary t ht
    have sc := sin_sq_add_cos_sq (θ t)
    constructor
    · linear_combination (-sin (θ t)) * s - lx t * sc
    · linear_combination cos (θ t) * s - k * sc
  have ham : ∀ t ∈ Set.Icc 0 T, HasDerivAt (fun t => 1 + V * (lx t * cos (θ t) + k * sin (θ t)) + k * d (x t)) 0 t := by
    intro t ht
    obtain ⟨D, hD, hl⟩ := h.adjoint t ht
    obtain ⟨θ', hθ⟩ : ∃ θ', HasDerivAt θ θ' t := ⟨_, (h.smooth t ht).hasDerivAt⟩
    refine (((((hl.mul hθ.cos).add (hθ.sin.const_mul k)).const_mul V).const_add 1).add
      (HasDerivAt.comp t hD (h.east t ht))).congr_deriv ?_
    linear_combination V * θ' * h.stationary t ht
  have c := const_on ham
  intro t ht
  obtain ⟨e1, e2⟩ := dir t ht
  refine ⟨_, e1, e2, ?_⟩
  have k1 := c t ht
  have k2 := c T m1
  have k3 := h.stops
  rw [← k2] at k1
  linear_combination k1 + k3 - d (x t) * e2

/-- Zermelo's problem with a current that depends on the distance from the shore: a crossing that satisfies the first-order conditions and
always heads for the other bank, with a boat that is faster than the current where it goes against it, is the fastest one to the place
where it lands; how much longer a crossing to another place takes is bounded by the multiplier. -/
theorem Steers.fastest {V w T k : ℝ} {d x y θ lx : ℝ → ℝ} (h : Steers V d w T k x y θ lx) (hT : 0 ≤ T) (hd : Continuous d) (hV : 0 < V)
    (forward : ∀ t ∈ Set.Icc 0 T, 0 < cos (θ t)) (fast : ∀ t ∈ Set.Icc 0 T, 0 < V + d (x t) * sin (θ t)) {T' : ℝ} (hT' : 0 ≤ T')
    {X Y Θ : ℝ → ℝ} (hX : Crosses V d w T' X Y Θ) : T + k * y T ≤ T' + k * Y T' := by
  have m1 : T ∈ Set.Icc 0 T := ⟨hT, le_refl _⟩
  have cx : ContinuousOn x (Set.Icc 0 T) := fun t ht => (h.east t ht).continuousAt.continuousWithinAt
  have mult : ∀ t ∈ Set.Icc 0 T, ∃ m, m < 0 ∧ lx t = m * cos (θ t) ∧ k = m * sin (θ t) ∧ 1 + k * d (x t) = -(m * V) := by
    intro t ht
    obtain ⟨m, e1, e2, e3⟩ := h.heading hT t ht
    refine ⟨m, ?_, e1, e2, ?_⟩
    · by_contra hn
      have := mul_nonneg (not_lt.1 hn) (fast t ht).le
      linarith
    · linear_combination e3 + d (x t) * e2
  have hk : ∀ s ∈ Set.Icc 0 w, |k| * V ≤ 1 + k * d s := by
    intro s hs
    have hs : s ∈ Set.Icc (x 0) (x T) := by rw [h.start.1, h.stop]; exact hs
    obtain ⟨t, ht, rfl⟩ := intermediate_value_Icc hT cx hs
    obtain ⟨m, m0, -, e2, e3⟩ := mult t ht
    rw [e3, e2, abs_mul, abs_of_neg m0]
    have := mul_le_mul_of_nonneg_left (abs_sin_le_one (θ t)) (show 0 ≤ -m by linarith)
    nlinarith
  have bound := crossing_bound hd hV hk hT' hX
  have self : T = crossTime V k d w - k * y T := by
    have dD : ∀ t ∈ Set.Icc 0 T, HasDerivAt (fun t => t - (crossTime V k d (x t) - k * y t)) 0 t := by
      intro t ht
      obtain ⟨m, m0, -, e2, e3⟩ := mult t ht
      refine ((hasDerivAt_id t).sub ((HasDerivAt.comp t (crossTime_deriv hd (x t)) (h.east t ht)).sub
        ((h.north t ht).const_mul k))).congr_deriv ?_
      have sc := sin_sq_add_cos_sq (θ t)
      have e : ((1 + k * d (x t)) / V) ^ 2 - k ^ 2 = (-m * cos (θ t)) ^ 2 := by
        rw [e3, show -(m * V) / V = -m by field_simp]
        nth_rewrite 1 [e2]
        linear_combination (-m ^ 2) * sc
      rw [e, sqrt_sq (mul_nonneg (by linarith) (forward t ht).le)]
      linear_combination e3 + m * V * sc + V * sin (θ t) * e2
    have := const_on dD T m1
    simp only [h.start.1, h.start.2, h.stop, crossTime_zero] at this
    linarith
  linarith

/-- A convex function lies above its tangents. -/
theorem convex_tangent {S : Set ℝ} {f : ℝ → ℝ} (hf : ConvexOn ℝ S f) {x y k : ℝ} (hx : x ∈ S) (hy : y ∈ S) (hd : HasDerivAt f k x) :
    f x + k * (y - x) ≤ f y := by
  rcases lt_trichotomy x y with h | h | h
  · have := hf.le_slope_of_hasDerivAt hx hy h hd
    rw [slope_def_field, le_div_iff₀ (by linarith)] at this
    linarith
  · rw [h]
    simp
  · have := hf.slope_le_of_hasDerivAt hy hx h hd
    rw [slope_def_field, div_le_iff₀ (by linarith)] at this
    linarith

end Beluga.E2E
