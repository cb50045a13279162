import Verif.Shooting.Linear
import Mathlib.Analysis.Calculus.InverseFunctionTheorem.FDeriv
import Mathlib.Analysis.Normed.Module.FiniteDimension

/-!
# Newton's method near a regular zero

The step with forward differences instead of derivatives, and the iteration with its line search.
-/

namespace Beluga.Shoot

open Beluga.Traj (Arr Curve mix getD_eq)

/-- The matrix of forward differences of `φ` at `x`, as a linear map. -/
noncomputable def fdMap {n m : Nat} (φ : (Fin n → ℝ) → Fin m → ℝ) (h : Fin n → ℝ) (x : Fin n → ℝ) : (Fin n → ℝ) →ₗ[ℝ] Fin m → ℝ where
  toFun d := ∑ j, d j • (h j)⁻¹ • (φ (Function.update x j (x j + h j)) - φ x)
  map_add' a b := by simp [add_smul, Finset.sum_add_distrib]
  map_smul' c a := by simp [mul_smul, Finset.smul_sum]

/-- Near `xs` the function `φ` is within `κ` of the linear map `A`, whose inverse is bounded by `β`. -/
structure Nearly {n : Nat} (φ : (Fin n → ℝ) → Fin n → ℝ) (xs : Fin n → ℝ) (A : (Fin n → ℝ) →L[ℝ] Fin n → ℝ) (β κ ρ : ℝ) : Prop where
  beta : 0 ≤ β
  kappa : 0 ≤ κ
  inv : ∀ v, ‖v‖ ≤ β * ‖A v‖
  approx : ∀ x ∈ Metric.ball xs ρ, ∀ y ∈ Metric.ball xs ρ, ‖φ x - φ y - A (x - y)‖ ≤ κ * ‖x - y‖
  zero : φ xs = 0

theorem update_add {n : Nat} (x : Fin n → ℝ) (j : Fin n) (a : ℝ) : Function.update x j (x j + a) - x = a • Pi.single j (1 : ℝ) := by
  ext i
  by_cases hi : i = j
  · subst hi; simp
  · simp [hi]

variable {n : Nat} {φ : (Fin n → ℝ) → Fin n → ℝ} {xs : Fin n → ℝ} {A : (Fin n → ℝ) →L[ℝ] Fin n → ℝ} {β κ ρ : ℝ}

/-- Forward differences are as close to `A` as `φ` is. -/
theorem Nearly.jacobian (hN : Nearly φ xs A β κ ρ) {x : Fin n → ℝ} (hx : ‖x - xs‖ < ρ / 2) {h : Fin n → ℝ}
    (hh : ∀ j, h j ≠ 0 ∧ |h j| < ρ / 2) (d : Fin n → ℝ) : ‖fdMap φ h x d - A d‖ ≤ n * κ * ‖d‖ := by
  have hρ : 0 < ρ / 2 := lt_of_le_of_lt (norm_nonneg _) hx
  have hxb : x ∈ Metric.ball xs ρ := by rw [mem_ball_iff_norm]; linarith
  have e : ∀ j : Fin n, ‖(Pi.single j (1 : ℝ) : Fin n → ℝ)‖ = 1 := fun j => by rw [Pi.norm_single, norm_one]
  have hd : A d = ∑ j, d j • A (Pi.single j 1) := by
    conv_lhs => rw [pi_eq_sum_univ' d]
    simp only [map_sum, map_smul]
  have hcol : ∀ j, ‖(h j)⁻¹ • (φ (Function.update x j (x j + h j)) - φ x) - A (Pi.single j 1)‖ ≤ κ := by
    intro j
    have hu : Function.update x j (x j + h j) ∈ Metric.ball xs ρ := by
      rw [mem_ball_iff_norm]
      calc ‖Function.update x j (x j + h j) - xs‖ = ‖(Function.update x j (x j + h j) - x) + (x - xs)‖ := by congr 1; abel
        _ ≤ ‖Function.update x j (x j + h j) - x‖ + ‖x - xs‖ := norm_add_le _ _
        _ < ρ / 2 + ρ / 2 := by
            rw [update_add, norm_smul, e, mul_one, Real.norm_eq_abs]
            exact add_lt_add (hh j).2 hx
        _ = ρ := by ring
    have := hN.approx _ hu x hxb
    rw [update_add, norm_smul, e, mul_one, Real.norm_eq_abs, map_smul] at this
    have hne := (hh j).1
    have e2 : (h j)⁻¹ • (φ (Function.update x j (x j + h j)) - φ x) - A (Pi.single j 1) =
        (h j)⁻¹ • (φ (Function.update x j (x j + h j)) - φ x - h j • A (Pi.single j 1)) := by
      rw [smul_sub _ (φ (Function.update x j (x j + h j)) - φ x), smul_smul, inv_mul_cancel₀ hne, one_smul]
    rw [e2, norm_smul, norm_inv, Real.norm_eq_abs, inv_mul_le_iff₀ (abs_pos.2 hne)]
    linarith
  calc ‖fdMap φ h x d - A d‖
      = ‖∑ j, d j • ((h j)⁻¹ • (φ (Function.update x j (x j + h j)) - φ x) - A (Pi.single j 1))‖ := by
        rw [hd]
        simp only [fdMap, LinearMap.coe_mk, AddHom.coe_mk, smul_sub, Finset.sum_sub_distrib]
    _ ≤ ∑ j : Fin n, ‖d j • ((h j)⁻¹ • (φ (Function.update x j (x j + h j)) - φ x) - A (Pi.single j 1))‖ := norm_sum_le _ _
    _ ≤ ∑ _j : Fin n, ‖d‖ * κ := by
        refine Finset.sum_le_sum fun j _ => ?_
        rw [norm_smul]
        exact mul_le_mul (norm_le_pi_norm d j) (hcol j) (norm_nonneg _) (norm_nonneg _)
    _ = n * κ * ‖d‖ := by simp; ring

/-- The equations for the Newton step have a solution. -/
theorem Nearly.step_exists (hN : Nearly φ xs A β κ ρ) (hs : β * (κ * (n + 1)) ≤ 1 / 4) {x : Fin n → ℝ} (hx : ‖x - xs‖ < ρ / 2)
    {h : Fin n → ℝ} (hh : ∀ j, h j ≠ 0 ∧ |h j| < ρ / 2) (b : Fin n → ℝ) : ∃ d, fdMap φ h x d = b := by
  have hinj : Function.Injective (fdMap φ h x) := by
    rw [← LinearMap.ker_eq_bot, LinearMap.ker_eq_bot']
    intro d hd
    have h1 := hN.jacobian hx hh d
    rw [hd, zero_sub, norm_neg] at h1
    have h2 := hN.inv d
    have h3 : β * ‖A d‖ ≤ β * (n * κ * ‖d‖) := mul_le_mul_of_nonneg_left h1 hN.beta
    have h4 : β * (n * κ * ‖d‖) ≤ β * (κ * (n + 1)) * ‖d‖ := by
      have : β * (κ * (n + 1)) * ‖d‖ = β * (n * κ * ‖d‖) + β * κ * ‖d‖ := by ring
      have := mul_nonneg (mul_nonneg hN.beta hN.kappa) (norm_nonneg d)
      linarith
    have h5 : β * (κ * (n + 1)) * ‖d‖ ≤ 1 / 4 * ‖d‖ := mul_le_mul_of_nonneg_right hs (norm_nonneg _)
    have h6 : ‖d‖ ≤ 0 := by linarith [norm_nonneg d]
    exact norm_le_zero_iff.1 h6
  exact (LinearMap.injective_iff_surjective.1 hinj) b

/-- The Newton step halves the distance and makes the residual smaller. -/
theorem Nearly.step (hN : Nearly φ xs A β κ ρ) (hs : β * (κ * (n + 1)) ≤ 1 / 4) {x : Fin n → ℝ} (hx : ‖x - xs‖ < ρ / 2)
    {h : Fin n → ℝ} (hh : ∀ j, h j ≠ 0 ∧ |h j| < ρ / 2) {d : Fin n → ℝ} (hd : fdMap φ h x d = -φ x) :
    ‖x + d - xs‖ ≤ ‖x - xs‖ / 2 ∧ ‖φ (x + d)‖ ≤ 2 * (β * (κ * (n + 1))) * ‖φ x‖ := by
  have hρ : 0 < ρ / 2 := lt_of_le_of_lt (norm_nonneg _) hx
  have hxb : x ∈ Metric.ball xs ρ := by rw [mem_ball_iff_norm]; linarith
  have hsb : xs ∈ Metric.ball xs ρ := Metric.mem_ball_self (by linarith)
  have hJ := hN.jacobian hx hh d
  rw [hd] at hJ
  have h1 : ‖x + d - xs‖ ≤ ‖x - xs‖ / 2 := by
    have ha := hN.approx x hxb xs hsb
    rw [hN.zero, sub_zero] at ha
    have e : A (x + d - xs) = -(φ x - A (x - xs)) - (-φ x - A d) := by
      rw [show x + d - xs = (x - xs) + d by abel, map_add]; abel
    have h2 := hN.inv (x + d - xs)
    have h3 : ‖A (x + d - xs)‖ ≤ κ * ‖x - xs‖ + n * κ * ‖d‖ := by
      rw [e]
      refine (norm_sub_le _ _).trans ?_
      rw [norm_neg]
      exact add_le_add ha hJ
    have h4 : ‖d‖ ≤ ‖x + d - xs‖ + ‖x - xs‖ := by
      have : d = (x + d - xs) - (x - xs) := by abel
      conv_lhs => rw [this]
      exact norm_sub_le _ _
    have hk := mul_nonneg hN.beta hN.kappa
    have h5 : β * ‖A (x + d - xs)‖ ≤ β * (κ * ‖x - xs‖ + n * κ * (‖x + d - xs‖ + ‖x - xs‖)) := by
      refine mul_le_mul_of_nonneg_left (h3.trans ?_) hN.beta
      have := mul_le_mul_of_nonneg_left h4 (mul_nonneg (Nat.cast_nonneg n) hN.kappa)
      linarith
    have h6 : β * (κ * ‖x - xs‖ + n * κ * (‖x + d - xs‖ + ‖x - xs‖)) ≤
        β * (κ * (n + 1)) * ‖x - xs‖ + β * (κ * (n + 1)) * ‖x + d - xs‖ := by
      have : β * (κ * (n + 1)) * ‖x - xs‖ + β * (κ * (n + 1)) * ‖x + d - xs‖ =
          β * (κ * ‖x - xs‖ + n * κ * (‖x + d - xs‖ + ‖x - xs‖)) + β * κ * ‖x + d - xs‖ := by ring
      have := mul_nonneg hk (norm_nonneg (x + d - xs))
      linarith
    have h7 := mul_le_mul_of_nonneg_right hs (norm_nonneg (x - xs))
    have h8 := mul_le_mul_of_nonneg_right hs (norm_nonneg (x + d - xs))
    linarith [norm_nonneg (x - xs)]
  refine ⟨h1, ?_⟩
  have hdb : x + d ∈ Metric.ball xs ρ := by rw [mem_ball_iff_norm]; linarith [norm_nonneg (x - xs)]
  have ha := hN.approx _ hdb x hxb
  rw [show x + d - x = d by abel] at ha
  have hdn : ‖d‖ ≤ 2 * β * ‖φ x‖ := by
    have h2 := hN.inv d
    have h3 : ‖A d‖ ≤ ‖φ x‖ + n * κ * ‖d‖ := by
      have : A d = -φ x - (-φ x - A d) := by abel
      rw [this]
      refine (norm_sub_le _ _).trans ?_
      rw [norm_neg]
      linarith
    have h4 := mul_le_mul_of_nonneg_left h3 hN.beta
    have h5 : β * (‖φ x‖ + n * κ * ‖d‖) ≤ β * ‖φ x‖ + β * (κ * (n + 1)) * ‖d‖ := by
      have : β * ‖φ x‖ + β * (κ * (n + 1)) * ‖d‖ = β * (‖φ x‖ + n * κ * ‖d‖) + β * κ * ‖d‖ := by ring
      have := mul_nonneg (mul_nonneg hN.beta hN.kappa) (norm_nonneg d)
      linarith
    have h6 := mul_le_mul_of_nonneg_right hs (norm_nonneg d)
    have h7 := mul_nonneg hN.beta (norm_nonneg (φ x))
    linarith [norm_nonneg d]
  have e : φ (x + d) = (φ (x + d) - φ x - A d) - (-φ x - A d) := by abel
  calc ‖φ (x + d)‖ ≤ ‖φ (x + d) - φ x - A d‖ + ‖-φ x - A d‖ := by
        conv_lhs => rw [e]
        exact norm_sub_le _ _
    _ ≤ κ * ‖d‖ + n * κ * ‖d‖ := add_le_add ha hJ
    _ = κ * (n + 1) * ‖d‖ := by ring
    _ ≤ κ * (n + 1) * (2 * β * ‖φ x‖) := mul_le_mul_of_nonneg_left hdn (mul_nonneg hN.kappa (by positivity))
    _ = 2 * (β * (κ * (n + 1))) * ‖φ x‖ := by ring

/-- The distance to the zero is bounded by the residual. -/
theorem Nearly.dist_le (hN : Nearly φ xs A β κ ρ) (hs : β * (κ * (n + 1)) ≤ 1 / 4) {x : Fin n → ℝ} (hx : ‖x - xs‖ < ρ / 2) :
    ‖x - xs‖ ≤ 2 * β * ‖φ x‖ := by
  have hρ : 0 < ρ / 2 := lt_of_le_of_lt (norm_nonneg _) hx
  have hxb : x ∈ Metric.ball xs ρ := by rw [mem_ball_iff_norm]; linarith
  have hsb : xs ∈ Metric.ball xs ρ := Metric.mem_ball_self (by linarith)
  have ha := hN.approx x hxb xs hsb
  rw [hN.zero, sub_zero] at ha
  have h1 := hN.inv (x - xs)
  have h2 : ‖A (x - xs)‖ ≤ ‖φ x‖ + κ * ‖x - xs‖ := by
    have : A (x - xs) = φ x - (φ x - A (x - xs)) := by abel
    rw [this]
    exact (norm_sub_le _ _).trans (by linarith)
  have h3 := mul_le_mul_of_nonneg_left h2 hN.beta
  have h4 : β * (‖φ x‖ + κ * ‖x - xs‖) ≤ β * ‖φ x‖ + β * (κ * (n + 1)) * ‖x - xs‖ := by
    have : β * ‖φ x‖ + β * (κ * (n + 1)) * ‖x - xs‖ = β * (‖φ x‖ + κ * ‖x - xs‖) + n * (β * κ * ‖x - xs‖) := by ring
    have := mul_nonneg (Nat.cast_nonneg (α := ℝ) n) (mul_nonneg (mul_nonneg hN.beta hN.kappa) (norm_nonneg (x - xs)))
    linarith
  have h5 := mul_le_mul_of_nonneg_right hs (norm_nonneg (x - xs))
  have h6 := mul_nonneg hN.beta (norm_nonneg (φ x))
  linarith [norm_nonneg (x - xs)]

/-- A regular zero is nearly linear, as closely as one likes. -/
theorem nearly_of_strict {A : (Fin n → ℝ) →L[ℝ] Fin n → ℝ} (h0 : φ xs = 0) (hφ : HasStrictFDerivAt φ A xs) (hA : Function.Injective A) :
    ∃ β : ℝ, 0 ≤ β ∧ ∀ κ : ℝ, 0 < κ → ∃ ρ > 0, Nearly φ xs A β κ ρ := by
  obtain ⟨K, hK, hanti⟩ := LinearMap.exists_antilipschitzWith (A : (Fin n → ℝ) →ₗ[ℝ] Fin n → ℝ) (LinearMap.ker_eq_bot.2 hA)
  refine ⟨K, K.2, fun κ hκ => ?_⟩
  obtain ⟨s, hs, happ⟩ := hφ.approximates_deriv_on_nhds (c := ⟨κ, hκ.le⟩) (Or.inr hκ)
  obtain ⟨ρ, hρ, hball⟩ := Metric.mem_nhds_iff.1 hs
  refine ⟨ρ, hρ, K.2, hκ.le, fun v => ?_, fun x hx y hy => happ x (hball hx) y (hball hy), h0⟩
  have := hanti.le_mul_dist v 0
  simpa using this

end Beluga.Shoot
