import Mathlib.Analysis.Calculus.MeanValue
import Mathlib.Analysis.SpecialFunctions.Trigonometric.Deriv

/-!
# Curves of fastest descent are cycloids

The first-order conditions of the brachistochrone problem, as real functions, and their consequences.
-/

namespace Beluga.E2E

open Real

/-! ### Specification -/

/-- A point of the circle of radius `r` that rolls below the axis at the rate `ω`, at the time `t`: it starts at the origin. -/
noncomputable def rolled (r ω t : ℝ) : ℝ × ℝ := (r * (ω * t - sin (ω * t)), -(r * (1 - cos (ω * t))))

/-! ### Lemmas -/

/-- A function whose derivative vanishes on an interval is constant there. -/
theorem const_on {a b : ℝ} {f : ℝ → ℝ} (h : ∀ t ∈ Set.Icc a b, HasDerivAt f 0 t) : ∀ t ∈ Set.Icc a b, f t = f a :=
  constant_of_has_deriv_right_zero (fun t ht => (h t ht).continuousAt.continuousWithinAt)
    fun t ht => (h t ⟨ht.1, ht.2.le⟩).hasDerivWithinAt

/-- Two functions that agree on an interval have the same derivatives there. -/
theorem deriv_unique_on {a b : ℝ} (hab : a < b) {f g : ℝ → ℝ} (h : ∀ t ∈ Set.Icc a b, f t = g t) {t d e : ℝ} (ht : t ∈ Set.Icc a b)
    (hf : HasDerivAt f d t) (hg : HasDerivAt g e t) : d = e := by
  have h1 : HasDerivWithinAt f e (Set.Icc a b) t := hg.hasDerivWithinAt.congr h (h t ht)
  exact (uniqueDiffOn_Icc hab t ht).eq_deriv _ hf.hasDerivWithinAt h1

/-- The first-order conditions of the brachistochrone problem: the direction turns at a constant rate, and the speed is
proportional to the cosine of the direction. -/
theorem turns_of_conditions {a b g : ℝ} (hab : a < b) {v θ lx ly lv : ℝ → ℝ}
    (hv : ∀ t ∈ Set.Icc a b, HasDerivAt v (g * sin (θ t)) t) (hθ : ∀ t ∈ Set.Icc a b, DifferentiableAt ℝ θ t)
    (hlx : ∀ t ∈ Set.Icc a b, HasDerivAt lx 0 t) (hly : ∀ t ∈ Set.Icc a b, HasDerivAt ly 0 t)
    (hlv : ∀ t ∈ Set.Icc a b, HasDerivAt lv (-(lx t * cos (θ t) + ly t * sin (θ t))) t)
    (hs : ∀ t ∈ Set.Icc a b, -(lx t * v t * sin (θ t)) + ly t * v t * cos (θ t) + lv t * g * cos (θ t) = 0)
    (hH : 1 + lx b * v b * cos (θ b) + ly b * v b * sin (θ b) + lv b * g * sin (θ b) = 0) :
    ∀ t ∈ Set.Icc a b, θ t = θ a + g * lx a * (t - a) ∧ lx a * v t = -cos (θ t) ∧ HasDerivAt θ (g * lx a) t := by
  have cx := const_on hlx
  have cy := const_on hly
  obtain ⟨k, hk⟩ : ∃ k, k = lx a := ⟨_, rfl⟩
  obtain ⟨m, hm⟩ : ∃ m, m = ly a := ⟨_, rfl⟩
  have hP : ∀ t ∈ Set.Icc a b, HasDerivAt (fun τ => k * v τ) (k * (g * sin (θ t))) t := fun t ht => (hv t ht).const_mul k
  have hR : ∀ t ∈ Set.Icc a b, HasDerivAt (fun τ => m * v τ + lv τ * g) (-(g * k * cos (θ t))) t := by
    intro t ht
    refine (((hv t ht).const_mul m).add ((hlv t ht).mul_const g)).congr_deriv ?_
    rw [cx t ht, cy t ht, ← hk, ← hm]
    ring
  have hs' : ∀ t ∈ Set.Icc a b, (m * v t + lv t * g) * cos (θ t) = k * v t * sin (θ t) := by
    intro t ht
    have := hs t ht
    rw [cx t ht, cy t ht, ← hk, ← hm] at this
    linarith
  have hbb : b ∈ Set.Icc a b := ⟨hab.le, le_refl _⟩
  have hH' : 1 + k * v b * cos (θ b) + (m * v b + lv b * g) * sin (θ b) = 0 := by
    rw [cx b hbb, cy b hbb, ← hk, ← hm] at hH
    linarith
  -- the length of the momentum is constant
  have hN : ∀ t ∈ Set.Icc a b, (k * v t) ^ 2 + (m * v t + lv t * g) ^ 2 = 1 := by
    have c0 := const_on (f := fun τ => (k * v τ) ^ 2 + (m * v τ + lv τ * g) ^ 2) (a := a) (b := b) (by
      intro t ht
      refine (((hP t ht).pow 2).add ((hR t ht).pow 2)).congr_deriv ?_
      have := hs' t ht
      simp only [Nat.cast_ofNat, Nat.add_one_sub_one, pow_one]
      linear_combination (-2 * g * k) * this)
    intro t ht
    have e1 := c0 t ht
    have e2 := c0 b hbb
    rw [e1, ← e2]
    have sc := sin_sq_add_cos_sq (θ b)
    have hsb := hs' b hbb
    have p1 : k * v b = -cos (θ b) := by linear_combination (-(k * v b)) * sc + cos (θ b) * hH' - sin (θ b) * hsb
    have p2 : m * v b + lv b * g = -sin (θ b) := by
      linear_combination (-(m * v b + lv b * g)) * sc + sin (θ b) * hH' + cos (θ b) * hsb
    rw [p1, p2]
    linear_combination sc
  -- it is opposite to the direction of motion
  have hS : ∀ t ∈ Set.Icc a b, k * v t * cos (θ t) + (m * v t + lv t * g) * sin (θ t) = -1 := by
    have sq : ∀ t ∈ Set.Icc a b, (k * v t * cos (θ t) + (m * v t + lv t * g) * sin (θ t)) ^ 2 = 1 := by
      intro t ht
      have e1 := hN t ht
      have e2 := hs' t ht
      have sc := sin_sq_add_cos_sq (θ t)
      linear_combination e1 + ((k * v t) ^ 2 + (m * v t + lv t * g) ^ 2) * sc -
        ((m * v t + lv t * g) * cos (θ t) - k * v t * sin (θ t)) * e2
    have hc : ContinuousOn (fun t => k * v t * cos (θ t) + (m * v t + lv t * g) * sin (θ t)) (Set.Icc a b) := by
      intro t ht
      exact (((hP t ht).continuousAt.mul (hθ t ht).hasDerivAt.cos.continuousAt).add
        ((hR t ht).continuousAt.mul (hθ t ht).hasDerivAt.sin.continuousAt)).continuousWithinAt
    intro t ht
    rcases (sq_eq_sq_iff_eq_or_eq_neg (b := (1 : ℝ))).1 (by rw [sq t ht, one_pow]) with h1 | h1
    · exfalso
      have hb1 : k * v b * cos (θ b) + (m * v b + lv b * g) * sin (θ b) = -1 := by linarith
      have hsub : Set.Icc t b ⊆ Set.Icc a b := Set.Icc_subset_Icc_left ht.1
      obtain ⟨z, hz, e⟩ := intermediate_value_Icc' ht.2 (hc.mono hsub)
        (show (0 : ℝ) ∈ Set.Icc _ _ from ⟨by simp only [hb1]; norm_num, by simp only [h1]; norm_num⟩)
      have := sq z (hsub hz)
      simp only at e
      rw [e] at this
      norm_num at this
    · exact h1
  have hp : ∀ t ∈ Set.Icc a b, k * v t = -cos (θ t) := by
    intro t ht
    have sc := sin_sq_add_cos_sq (θ t)
    linear_combination (-(k * v t)) * sc + cos (θ t) * hS t ht - sin (θ t) * hs' t ht
  have hr : ∀ t ∈ Set.Icc a b, m * v t + lv t * g = -sin (θ t) := by
    intro t ht
    have sc := sin_sq_add_cos_sq (θ t)
    linear_combination (-(m * v t + lv t * g)) * sc + sin (θ t) * hS t ht + cos (θ t) * hs' t ht
  -- it turns at a constant rate
  have hd : ∀ t ∈ Set.Icc a b, HasDerivAt θ (g * k) t := by
    intro t ht
    have h0 := (hθ t ht).hasDerivAt
    have e1 := deriv_unique_on hab hp ht (hP t ht) (h0.cos.neg)
    have e2 := deriv_unique_on hab hr ht (hR t ht) (h0.sin.neg)
    have sc := sin_sq_add_cos_sq (θ t)
    have : deriv θ t = g * k := by linear_combination (-(deriv θ t) + g * k) * sc - sin (θ t) * e1 + cos (θ t) * e2
    rwa [this] at h0
  intro t ht
  rw [← hk]
  refine ⟨?_, hp t ht, hd t ht⟩
  have := const_on (f := fun τ => θ τ - g * k * (τ - a)) (a := a) (b := b) (by
    intro t ht
    exact ((hd t ht).sub (((hasDerivAt_id t).sub_const a).const_mul (g * k))).congr_deriv (by ring)) t ht
  simp only [sub_self, mul_zero, sub_zero] at this
  linarith

/-- The first-order conditions of the brachistochrone problem: the path is a cycloid. -/
theorem rolled_of_conditions {a b g : ℝ} (hab : a < b) {x y v θ lx ly lv : ℝ → ℝ}
    (hx : ∀ t ∈ Set.Icc a b, HasDerivAt x (v t * cos (θ t)) t) (hy : ∀ t ∈ Set.Icc a b, HasDerivAt y (v t * sin (θ t)) t)
    (hv : ∀ t ∈ Set.Icc a b, HasDerivAt v (g * sin (θ t)) t) (hθ : ∀ t ∈ Set.Icc a b, DifferentiableAt ℝ θ t)
    (hlx : ∀ t ∈ Set.Icc a b, HasDerivAt lx 0 t) (hly : ∀ t ∈ Set.Icc a b, HasDerivAt ly 0 t)
    (hlv : ∀ t ∈ Set.Icc a b, HasDerivAt lv (-(lx t * cos (θ t) + ly t * sin (θ t))) t)
    (hs : ∀ t ∈ Set.Icc a b, -(lx t * v t * sin (θ t)) + ly t * v t * cos (θ t) + lv t * g * cos (θ t) = 0)
    (hH : 1 + lx b * v b * cos (θ b) + ly b * v b * sin (θ b) + lv b * g * sin (θ b) = 0)
    (hxa : x a = 0) (hya : y a = 0) (hva : v a = 0) (hg : g < 0) (hxb : x b ≠ 0) :
    ∃ r ω, 0 < r ∧ r * ω ^ 2 = -g ∧ ∀ t ∈ Set.Icc a b,
      (x t, y t) = rolled r ω (t - a) ∧ v t ^ 2 = 2 * g * y t ∧ θ t = θ a + ω / 2 * (t - a) := by
  have key := turns_of_conditions hab hv hθ hlx hly hlv hs hH
  obtain ⟨k, hk⟩ : ∃ k, k = lx a := ⟨_, rfl⟩
  rw [← hk] at key
  have haa : a ∈ Set.Icc a b := ⟨le_refl _, hab.le⟩
  have hk0 : k ≠ 0 := by
    intro e
    have h0 : ∀ t ∈ Set.Icc a b, HasDerivAt x 0 t := by
      intro t ht
      have hc := (key t ht).2.1
      rw [e, zero_mul] at hc
      have : cos (θ t) = 0 := by linarith
      have h1 := hx t ht
      rwa [this, mul_zero] at h1
    exact hxb ((const_on h0 b ⟨hab.le, le_refl _⟩).trans hxa)
  have hc : cos (θ a) = 0 := by
    have := (key a haa).2.1
    rw [hva] at this
    linarith
  have c2 : cos (2 * θ a) = -1 := by rw [cos_two_mul, hc]; norm_num
  have s2 : sin (2 * θ a) = 0 := by rw [sin_two_mul, hc]; ring
  have hk2 : 0 < k ^ 2 := by positivity
  have hr0 : 0 < 4 * -g * k ^ 2 := by nlinarith
  refine ⟨1 / (4 * -g * k ^ 2), 2 * (g * k), one_div_pos.2 hr0, ?_, ?_⟩
  · have := hg.ne
    field_simp
    ring
  intro t ht
  have hdouble : 2 * θ t = 2 * θ a + 2 * (g * k) * (t - a) := by
    rw [(key t ht).1]
    ring
  have ex := const_on (f := fun τ => 4 * g * k ^ 2 * x τ + 2 * θ τ + sin (2 * θ τ)) (a := a) (b := b) (by
    intro t ht
    obtain ⟨_, e, hd⟩ := key t ht
    refine ((((hx t ht).const_mul (4 * g * k ^ 2)).add (hd.const_mul 2)).add ((hd.const_mul 2).sin)).congr_deriv ?_
    rw [cos_two_mul]
    linear_combination (4 * g * k * cos (θ t)) * e) t ht
  have ey := const_on (f := fun τ => 4 * g * k ^ 2 * y τ - cos (2 * θ τ)) (a := a) (b := b) (by
    intro t ht
    obtain ⟨_, e, hd⟩ := key t ht
    refine (((hy t ht).const_mul (4 * g * k ^ 2)).sub ((hd.const_mul 2).cos)).congr_deriv ?_
    rw [sin_two_mul]
    linear_combination (4 * g * k * sin (θ t)) * e) t ht
  have ev := const_on (f := fun τ => v τ ^ 2 - 2 * g * y τ) (a := a) (b := b) (by
    intro t ht
    refine (((hv t ht).pow 2).sub ((hy t ht).const_mul (2 * g))).congr_deriv ?_
    simp only [Nat.cast_ofNat, Nat.add_one_sub_one, pow_one]
    ring) t ht
  simp only [hxa, hya, hva, s2, c2] at ex ey ev
  have es : sin (2 * θ t) = -sin (2 * (g * k) * (t - a)) := by
    rw [hdouble, sin_add, s2, c2]
    ring
  have ec : cos (2 * θ t) = -cos (2 * (g * k) * (t - a)) := by
    rw [hdouble, cos_add, s2, c2]
    ring
  rw [es] at ex
  rw [ec] at ey
  have hne : 4 * -g * k ^ 2 ≠ 0 := hr0.ne'
  refine ⟨?_, by linarith, by rw [(key t ht).1]; ring⟩
  rw [rolled, Prod.mk.injEq]
  constructor
  · rw [one_div, inv_mul_eq_div, eq_div_iff hne]
    linear_combination (-1) * ex + hdouble
  · rw [one_div, inv_mul_eq_div, ← neg_div, eq_div_iff hne]
    linear_combination (-1) * ey

end Beluga.E2E
