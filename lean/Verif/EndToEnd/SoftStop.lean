import Mathlib.MeasureTheory.Integral.IntervalIntegral.FundThmCalculus
import Mathlib.MeasureTheory.Integral.IntervalIntegral.Basic
import Mathlib.Analysis.Calculus.Deriv.Pow
import Mathlib.Analysis.Calculus.Deriv.Mul

/-!
# How much effort it takes to turn round before a wall

A point moves along a line, its acceleration is chosen.  It starts at 0 with speed 1, comes back to 0 after unit time with speed -1 and
stays below `l`.  The least integral of the square of the acceleration is `8 / (9 l)` for `l ≤ 1 / 6` (Bryson, Denham and Dreyfus 1963).
-/

namespace Beluga.E2E

/-! ### No motion takes less -/

/-- The first half: from 0 with speed 1 to at most `l` at time `3 l`. -/
theorem effort_half {l : ℝ} (hl : 0 < l) {x v u : ℝ → ℝ} (hx : ∀ t ∈ Set.Icc 0 (3 * l), HasDerivAt x (v t) t)
    (hv : ∀ t ∈ Set.Icc 0 (3 * l), HasDerivAt v (u t) t) (hu : ContinuousOn u (Set.Icc 0 (3 * l))) (x0 : x 0 = 0) (v0 : v 0 = 1)
    (x1 : x (3 * l) ≤ l) : 4 / (9 * l) ≤ ∫ t in (0 : ℝ)..(3 * l), u t ^ 2 := by
  have h3 : (0 : ℝ) ≤ 3 * l := by linarith
  have hI : Set.uIcc 0 (3 * l) = Set.Icc 0 (3 * l) := Set.uIcc_of_le h3
  obtain ⟨w, hw⟩ : ∃ w : ℝ → ℝ, w = fun t => 1 - t / (3 * l) := ⟨_, rfl⟩
  have dw : ∀ t, HasDerivAt w (-(1 / (3 * l))) t := by
    intro t
    rw [hw]
    exact ((hasDerivAt_id t).div_const (3 * l)).const_sub 1
  have cw : Continuous w := by
    rw [hw]
    fun_prop
  have w0 : w 0 = 1 := by simp [hw]
  have w1 : w (3 * l) = 0 := by
    rw [hw]
    field_simp
    ring
  have i1 : IntervalIntegrable (fun t => u t ^ 2) MeasureTheory.volume 0 (3 * l) := (hI ▸ hu.pow 2).intervalIntegrable
  have i2 : IntervalIntegrable (fun t => w t * u t) MeasureTheory.volume 0 (3 * l) :=
    (hI ▸ (cw.continuousOn.mul hu)).intervalIntegrable
  have i3 : IntervalIntegrable (fun t => w t ^ 2) MeasureTheory.volume 0 (3 * l) := (cw.pow 2).intervalIntegrable _ _
  have e2 : ∫ t in (0 : ℝ)..(3 * l), w t * u t = -1 + x (3 * l) / (3 * l) := by
    have := intervalIntegral.integral_eq_sub_of_hasDerivAt (a := 0) (b := 3 * l) (f := fun t => w t * v t + x t / (3 * l))
      (f' := fun t => w t * u t) (by
        intro t ht
        rw [hI] at ht
        refine (((dw t).mul (hv t ht)).add ((hx t ht).div_const (3 * l))).congr_deriv ?_
        ring) i2
    rw [this, w0, w1, v0, x0]
    ring
  have e3 : ∫ t in (0 : ℝ)..(3 * l), w t ^ 2 = l := by
    have := intervalIntegral.integral_eq_sub_of_hasDerivAt (a := 0) (b := 3 * l) (f := fun t => -l * w t ^ 3)
      (f' := fun t => w t ^ 2) (by
        intro t _
        refine (((dw t).pow 3).const_mul (-l)).congr_deriv ?_
        push_cast
        field_simp) i3
    rw [this, w0, w1]
    ring
  have pos : 0 ≤ ∫ t in (0 : ℝ)..(3 * l), (u t + 2 / (3 * l) * w t) ^ 2 :=
    intervalIntegral.integral_nonneg h3 fun t _ => sq_nonneg _
  have ex : ∫ t in (0 : ℝ)..(3 * l), (u t + 2 / (3 * l) * w t) ^ 2 =
      (∫ t in (0 : ℝ)..(3 * l), u t ^ 2) + 4 / (3 * l) * (∫ t in (0 : ℝ)..(3 * l), w t * u t) +
        4 / (9 * l ^ 2) * ∫ t in (0 : ℝ)..(3 * l), w t ^ 2 := by
    rw [← intervalIntegral.integral_const_mul, ← intervalIntegral.integral_const_mul,
      ← intervalIntegral.integral_add i1 (i2.const_mul _), ← intervalIntegral.integral_add (i1.add (i2.const_mul _)) (i3.const_mul _)]
    refine intervalIntegral.integral_congr fun t _ => ?_
    field_simp
    ring
  rw [ex, e2, e3] at pos
  have hx1 : x (3 * l) / (3 * l) ≤ 1 / 3 := by
    rw [div_le_div_iff₀ (by linarith) (by norm_num)]
    linarith
  have hk : 4 / (3 * l) * (-1 + x (3 * l) / (3 * l)) ≤ 4 / (3 * l) * (-1 + 1 / 3) :=
    mul_le_mul_of_nonneg_left (by linarith) (by positivity)
  have e4 : 4 / (3 * l) * (-1 + 1 / 3) + 4 / (9 * l ^ 2) * l = -(4 / (9 * l)) := by
    field_simp
    ring
  linarith

/-- The whole motion. -/
theorem effort_least {l : ℝ} (hl : 0 < l) (hl2 : l ≤ 1 / 6) {x v u : ℝ → ℝ} (hx : ∀ t ∈ Set.Icc (0 : ℝ) 1, HasDerivAt x (v t) t)
    (hv : ∀ t ∈ Set.Icc (0 : ℝ) 1, HasDerivAt v (u t) t) (hu : ContinuousOn u (Set.Icc 0 1)) (x0 : x 0 = 0) (v0 : v 0 = 1)
    (x1 : x 1 = 0) (v1 : v 1 = -1) (hle : ∀ t ∈ Set.Icc (0 : ℝ) 1, x t ≤ l) : 8 / (9 * l) ≤ ∫ t in (0 : ℝ)..1, u t ^ 2 := by
  have sub : Set.Icc 0 (3 * l) ⊆ Set.Icc (0 : ℝ) 1 := fun t ht => ⟨ht.1, by linarith [ht.2]⟩
  have back : ∀ t ∈ Set.Icc 0 (3 * l), 1 - t ∈ Set.Icc (0 : ℝ) 1 := fun t ht => ⟨by linarith [(sub ht).2], by linarith [ht.1]⟩
  have dr : ∀ t, HasDerivAt (fun τ : ℝ => 1 - τ) (-1) t := fun t => (hasDerivAt_id t).const_sub 1
  have h1 := effort_half hl (fun t ht => hx t (sub ht)) (fun t ht => hv t (sub ht)) (hu.mono sub) x0 v0
    (hle _ (sub ⟨by linarith, le_refl _⟩))
  have h2 := effort_half (x := fun t => x (1 - t)) (v := fun t => -v (1 - t)) (u := fun t => u (1 - t)) hl
    (fun t ht => (HasDerivAt.comp t (hx _ (back t ht)) (dr t)).congr_deriv (by ring))
    (fun t ht => (HasDerivAt.comp t (hv _ (back t ht)) (dr t)).neg.congr_deriv (by ring))
    (hu.comp (by fun_prop) back) (by simpa using x1) (by simp [v1]) (hle _ (back _ ⟨by linarith, le_refl _⟩))
  have e : ∫ t in (0 : ℝ)..(3 * l), u (1 - t) ^ 2 = ∫ t in (1 - 3 * l)..1, u t ^ 2 := by
    have := intervalIntegral.integral_comp_sub_left (a := 0) (b := 3 * l) (fun t => u t ^ 2) 1
    rw [this, sub_zero]
  rw [e] at h2
  have int : ∀ a b, a ∈ Set.Icc (0 : ℝ) 1 → b ∈ Set.Icc (0 : ℝ) 1 →
      IntervalIntegrable (fun t => u t ^ 2) MeasureTheory.volume a b := fun a b ha hb =>
    ((hu.pow 2).mono (Set.uIcc_subset_Icc ha hb)).intervalIntegrable
  have p0 : (0 : ℝ) ∈ Set.Icc (0 : ℝ) 1 := by simp
  have p1 : 3 * l ∈ Set.Icc (0 : ℝ) 1 := sub ⟨by linarith, le_refl _⟩
  have p2 : 1 - 3 * l ∈ Set.Icc (0 : ℝ) 1 := back _ ⟨by linarith, le_refl _⟩
  have p3 : (1 : ℝ) ∈ Set.Icc (0 : ℝ) 1 := by simp
  have mid : 0 ≤ ∫ t in (3 * l)..(1 - 3 * l), u t ^ 2 :=
    intervalIntegral.integral_nonneg (by linarith) fun t _ => sq_nonneg _
  rw [← intervalIntegral.integral_add_adjacent_intervals (int 0 _ p0 p1) (int _ 1 p1 p3),
    ← intervalIntegral.integral_add_adjacent_intervals (int (3 * l) _ p1 p2) (int _ 1 p2 p3)]
  have : 8 / (9 * l) = 4 / (9 * l) + 4 / (9 * l) := by ring
  linarith

/-! ### One motion takes no more -/

/-- How far the end of the braking phase is away, as a fraction of it. -/
noncomputable def brake (l t : ℝ) : ℝ := max 0 (1 - t / (3 * l))

theorem ramp_deriv (n : Nat) (w : ℝ) : HasDerivAt (fun s : ℝ => max 0 s ^ (n + 2)) ((n + 2 : ℝ) * max 0 w ^ (n + 1)) w := by
  rcases lt_trichotomy w 0 with h | h | h
  · have e : (fun s : ℝ => max 0 s ^ (n + 2)) =ᶠ[nhds w] fun _ => 0 := by
      filter_upwards [eventually_lt_nhds h] with s hs
      simp [max_eq_left hs.le]
    rw [max_eq_left h.le]
    simpa using (hasDerivAt_const w (0 : ℝ)).congr_of_eventuallyEq e
  · subst h
    rw [hasDerivAt_iff_isLittleO_nhds_zero]
    simp only [max_self, zero_add, ne_eq, Nat.add_eq_zero_iff, OfNat.ofNat_ne_zero, and_false, not_false_eq_true, zero_pow,
      sub_zero, one_ne_zero, mul_zero, smul_zero]
    have h1 : (fun h : ℝ => max 0 h ^ (n + 2)) =O[nhds 0] fun h => h ^ (n + 2) := by
      refine Asymptotics.IsBigO.of_bound 1 (Filter.Eventually.of_forall fun h => ?_)
      rw [norm_pow, norm_pow, one_mul]
      refine pow_le_pow_left₀ (norm_nonneg _) ?_ _
      rw [Real.norm_eq_abs, Real.norm_eq_abs, abs_of_nonneg (le_max_left _ _)]
      exact max_le (abs_nonneg _) (le_abs_self _)
    refine h1.trans_isLittleO ?_
    simpa using Asymptotics.isLittleO_pow_id (𝕜 := ℝ) (n := n + 2) (by omega)
  · have e : (fun s : ℝ => max 0 s ^ (n + 2)) =ᶠ[nhds w] fun s => s ^ (n + 2) := by
      filter_upwards [eventually_gt_nhds h] with s hs
      rw [max_eq_right hs.le]
    rw [max_eq_right h.le]
    refine ((hasDerivAt_pow (n + 2) w).congr_of_eventuallyEq e).congr_deriv ?_
    push_cast
    rfl

theorem brake_deriv (n : Nat) (l t : ℝ) :
    HasDerivAt (fun τ => brake l τ ^ (n + 2)) (-((n + 2 : ℝ) * brake l t ^ (n + 1) / (3 * l))) t := by
  have h : HasDerivAt (fun τ : ℝ => 1 - τ / (3 * l)) (-(1 / (3 * l))) t := ((hasDerivAt_id t).div_const (3 * l)).const_sub 1
  refine (HasDerivAt.comp t (ramp_deriv n _) h).congr_deriv ?_
  rw [brake]
  ring

theorem brake_nonneg (l t : ℝ) : 0 ≤ brake l t := le_max_left _ _

theorem brake_le {l t : ℝ} (hl : 0 < l) (ht : 0 ≤ t) : brake l t ≤ 1 := by
  refine max_le zero_le_one ?_
  have : 0 ≤ t / (3 * l) := by positivity
  linarith

theorem brake_zero {l t : ℝ} (hl : 0 < l) (ht : 3 * l ≤ t) : brake l t = 0 := by
  refine max_eq_left ?_
  have : 1 ≤ t / (3 * l) := by
    rw [le_div_iff₀ (by linarith)]
    linarith
  linarith

/-- The motion that brakes smoothly before the wall, waits, and goes back. -/
noncomputable def stopX (l t : ℝ) : ℝ := l * (1 - brake l t ^ 3 - brake l (1 - t) ^ 3)

noncomputable def stopV (l t : ℝ) : ℝ := brake l t ^ 2 - brake l (1 - t) ^ 2

noncomputable def stopU (l t : ℝ) : ℝ := -(2 / (3 * l) * (brake l t + brake l (1 - t)))

theorem brake_deriv' (n : Nat) (l t : ℝ) :
    HasDerivAt (fun τ => brake l (1 - τ) ^ (n + 2)) ((n + 2 : ℝ) * brake l (1 - t) ^ (n + 1) / (3 * l)) t := by
  refine (HasDerivAt.comp (h := fun τ : ℝ => 1 - τ) t (brake_deriv n l (1 - t)) ((hasDerivAt_id t).const_sub 1)).congr_deriv ?_
  ring

theorem stop_motion {l : ℝ} (hl : 0 < l) (t : ℝ) : HasDerivAt (stopX l) (stopV l t) t ∧ HasDerivAt (stopV l) (stopU l t) t := by
  constructor
  · refine ((((brake_deriv 1 l t).const_sub 1).sub (brake_deriv' 1 l t)).const_mul l).congr_deriv ?_
    rw [stopV]
    field_simp
    push_cast
    ring
  · refine ((brake_deriv 0 l t).sub (brake_deriv' 0 l t)).congr_deriv ?_
    rw [stopU]
    field_simp
    push_cast
    ring

theorem stop_ends {l : ℝ} (hl : 0 < l) (hl2 : l ≤ 1 / 6) : stopX l 0 = 0 ∧ stopV l 0 = 1 ∧ stopX l 1 = 0 ∧ stopV l 1 = -1 := by
  have h0 : brake l 0 = 1 := by simp [brake]
  have h1 : brake l 1 = 0 := brake_zero hl (by linarith)
  simp [stopX, stopV, h0, h1]

theorem stop_within {l t : ℝ} (hl : 0 < l) (h0 : 0 ≤ t) (h1 : t ≤ 1) : -l ≤ stopX l t ∧ stopX l t ≤ l := by
  have a1 := brake_nonneg l t
  have a2 := brake_nonneg l (1 - t)
  have b1 := pow_le_one₀ (n := 3) a1 (brake_le hl h0)
  have b2 := pow_le_one₀ (n := 3) a2 (brake_le hl (by linarith))
  have c1 := pow_nonneg a1 3
  have c2 := pow_nonneg a2 3
  rw [stopX]
  constructor <;> nlinarith

theorem brake_continuous (l : ℝ) : Continuous (brake l) := by
  unfold brake
  fun_prop

theorem stop_continuous (l : ℝ) : Continuous (stopU l) := by
  have := brake_continuous l
  unfold stopU
  fun_prop

theorem stop_effort {l : ℝ} (hl : 0 < l) (hl2 : l ≤ 1 / 6) : ∫ t in (0 : ℝ)..1, stopU l t ^ 2 = 8 / (9 * l) := by
  have hc := brake_continuous l
  have i : IntervalIntegrable (fun t => 4 / (9 * l ^ 2) * (brake l t ^ 2 + brake l (1 - t) ^ 2)) MeasureTheory.volume 0 1 :=
    Continuous.intervalIntegrable (by fun_prop) _ _
  have e : ∫ t in (0 : ℝ)..1, stopU l t ^ 2 = ∫ t in (0 : ℝ)..1, 4 / (9 * l ^ 2) * (brake l t ^ 2 + brake l (1 - t) ^ 2) := by
    refine intervalIntegral.integral_congr fun t _ => ?_
    have z : brake l t * brake l (1 - t) = 0 := by
      rcases le_total (3 * l) t with h | h
      · rw [brake_zero hl h, zero_mul]
      · rw [brake_zero hl (t := 1 - t) (by linarith), mul_zero]
    dsimp only [stopU]
    have hn := hl.ne'
    field_simp
    linear_combination 72 * z
  rw [e, intervalIntegral.integral_eq_sub_of_hasDerivAt (f := fun t => 4 / (9 * l ^ 2) * (-l * brake l t ^ 3 + l * brake l (1 - t) ^ 3))
    (by
      intro t _
      refine ((((brake_deriv 1 l t).const_mul (-l)).add ((brake_deriv' 1 l t).const_mul l)).const_mul (4 / (9 * l ^ 2))).congr_deriv ?_
      field_simp
      push_cast
      ring) i]
  have h0 : brake l 0 = 1 := by simp [brake]
  have h1 : brake l 1 = 0 := brake_zero hl (by linarith)
  simp only [sub_self, sub_zero, h0, h1]
  field_simp
  ring

end Beluga.E2E
