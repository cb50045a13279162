import Verif.EndToEnd.Cycloid
import Mathlib.Analysis.SpecialFunctions.Trigonometric.Bounds
import Mathlib.Topology.Order.MonotoneContinuity
import Mathlib.Topology.Homeomorph.Lemmas
import Mathlib.Topology.Order.IntermediateValue
import Mathlib.Analysis.Calculus.Deriv.Inverse

/-!
# Cycloids are fastest

A cycloid takes less time than any other descent between its ends, up to the end of its first arch.
-/

namespace Beluga.E2E

open Real

/-! ### Specification -/

/-- A frictionless descent from rest at the origin to a point in the time `T`, which never runs backwards: `V` is the speed, `Θ` the
direction. -/
structure Descends (g T x1 y1 : ℝ) (X Y V Θ : ℝ → ℝ) : Prop where
  start : X 0 = 0 ∧ Y 0 = 0 ∧ V 0 = 0
  stop : X T = x1 ∧ Y T = y1
  continuous : ContinuousOn X (Set.Icc 0 T) ∧ ContinuousOn Y (Set.Icc 0 T) ∧ ContinuousOn V (Set.Icc 0 T)
  motion : ∀ t ∈ Set.Ioo 0 T, HasDerivAt X (V t * cos (Θ t)) t ∧ HasDerivAt Y (V t * sin (Θ t)) t ∧ HasDerivAt V (g * sin (Θ t)) t
  speed_nonneg : ∀ t ∈ Set.Icc 0 T, 0 ≤ V t
  forward : ∀ t ∈ Set.Ioo 0 T, 0 ≤ cos (Θ t)

/-! ### Lemmas -/

theorem sub_sin_strictMono : StrictMono fun u : ℝ => u - sin u := by
  intro a b hab
  have h1 : sin b - sin a = 2 * sin ((b - a) / 2) * cos ((b + a) / 2) := sin_sub_sin b a
  have h2 : 0 < (b - a) / 2 := by linarith
  have h5 : sin ((b - a) / 2) * cos ((b + a) / 2) ≤ |sin ((b - a) / 2)| := by
    calc _ ≤ |sin ((b - a) / 2) * cos ((b + a) / 2)| := le_abs_self _
      _ = |sin ((b - a) / 2)| * |cos ((b + a) / 2)| := abs_mul _ _
      _ ≤ |sin ((b - a) / 2)| * 1 := mul_le_mul_of_nonneg_left (abs_cos_le_one _) (abs_nonneg _)
      _ = _ := mul_one _
  have h6 : |sin ((b - a) / 2)| < (b - a) / 2 := by
    have := abs_sin_lt_abs h2.ne'
    rwa [abs_of_pos h2] at this
  show a - sin a < b - sin b
  nlinarith

theorem sub_sin_surjective : Function.Surjective fun u : ℝ => u - sin u := by
  refine Continuous.surjective (by fun_prop) ?_ ?_
  · refine Filter.tendsto_atTop_mono (f := fun u => u - 1) (fun u => ?_) (Filter.tendsto_atTop_add_const_right _ (-1) Filter.tendsto_id)
    linarith [sin_le_one u]
  · exact Filter.tendsto_atBot_mono (fun u => (by linarith [neg_one_le_sin u] : u - sin u ≤ u + 1))
      (Filter.tendsto_atBot_add_const_right _ 1 Filter.tendsto_id)

/-- The angle of the circle that has rolled as far as `x`. -/
theorem exists_angle : ∃ a : ℝ → ℝ, Continuous a ∧ Monotone a ∧ (∀ x, a x - sin (a x) = x) ∧ (∀ u, a (u - sin u) = u) ∧
    ∀ x, cos (a x) ≠ 1 → HasDerivAt a (1 - cos (a x))⁻¹ x := by
  obtain ⟨e, he⟩ : ∃ e : ℝ ≃o ℝ, ∀ u, e u = u - sin u :=
    ⟨StrictMono.orderIsoOfSurjective _ sub_sin_strictMono sub_sin_surjective, fun _ => rfl⟩
  refine ⟨e.symm, e.symm.continuous, e.symm.monotone, fun x => ?_, fun u => ?_, fun x hx => ?_⟩
  · rw [← he, e.apply_symm_apply]
  · rw [← he, e.symm_apply_apply]
  · refine HasDerivAt.of_local_left_inverse (f := fun u => u - sin u) e.symm.continuous.continuousAt
      ((hasDerivAt_id _).sub (hasDerivAt_sin _)) (sub_ne_zero.2 (Ne.symm hx)) (Filter.Eventually.of_forall fun y => ?_)
    rw [← he, e.apply_symm_apply]

/-- The speed of a descent is that of free fall. -/
theorem Descends.speed {g T x1 y1 : ℝ} {X Y V Θ : ℝ → ℝ} (h : Descends g T x1 y1 X Y V Θ) :
    ∀ t ∈ Set.Icc 0 T, V t ^ 2 = 2 * g * Y t := by
  have c : ContinuousOn (fun t => V t ^ 2 - 2 * g * Y t) (Set.Icc 0 T) :=
    (h.continuous.2.2.pow 2).sub (continuousOn_const.mul h.continuous.2.1)
  intro t ht
  rcases eq_or_lt_of_le ht.1 with e | e
  · rw [← e, h.start.2.1, h.start.2.2]
    simp
  · obtain ⟨s, hs, hd⟩ := exists_hasDerivAt_eq_slope (fun t => V t ^ 2 - 2 * g * Y t)
      (fun t => 2 * V t * (g * sin (Θ t)) - 2 * g * (V t * sin (Θ t))) e (c.mono (Set.Icc_subset_Icc_right ht.2)) (fun s hs => by
        obtain ⟨-, d2, d3⟩ := h.motion s ⟨hs.1, hs.2.trans_le ht.2⟩
        exact ((d3.pow 2).sub (d2.const_mul (2 * g))).congr_deriv (by ring))
    rw [show 2 * V s * (g * sin (Θ s)) - 2 * g * (V s * sin (Θ s)) = 0 by ring, eq_comm, div_eq_zero_iff, h.start.2.1, h.start.2.2] at hd
    rcases hd with hd | hd <;> linarith

/-- The rate of the comparison function is at most one. -/
theorem rate_le_one {u v w θ : ℝ} (hu : 0 ≤ sin u) (hc : 0 ≤ cos θ) (hw : w = v * sin u) :
    cos θ * (2 * w - v * w) - cos u * sin θ ≤ 1 := by
  have h1 : sin u * (2 * v - v ^ 2) ≤ sin u := by nlinarith [mul_nonneg hu (sq_nonneg (v - 1))]
  have h2 : cos θ * (2 * w - v * w) ≤ cos θ * sin u := by
    refine mul_le_mul_of_nonneg_left ?_ hc
    rw [hw]
    linarith
  have h3 : cos θ * sin u - cos u * sin θ ≤ 1 := by
    have := sin_sub u θ
    linarith [sin_le_one (u - θ)]
  linarith

/-- A cycloid is the fastest descent between its ends, up to the end of its first arch. -/
theorem cycloid_fastest {g r ω T T' : ℝ} (hg : g < 0) (hr : 0 < r) (hω : 0 < ω) (hrω : r * ω ^ 2 = -g) (hT : 0 < T)
    (hT2 : ω * T < 2 * π) (hT' : 0 ≤ T') {X Y V Θ : ℝ → ℝ} (h : Descends g T' (rolled r ω T).1 (rolled r ω T).2 X Y V Θ) : T ≤ T' := by
  obtain ⟨a, ca, ma, a1, a2, da⟩ := exists_angle
  have a0 : a 0 = 0 := by simpa using a2 0
  have mono : MonotoneOn X (Set.Icc 0 T') := by
    refine monotoneOn_of_deriv_nonneg (convex_Icc 0 T') h.continuous.1 ?_ ?_
    · rw [interior_Icc]
      exact fun s hs => (h.motion s hs).1.differentiableAt.differentiableWithinAt
    · rw [interior_Icc]
      intro s hs
      rw [(h.motion s hs).1.deriv]
      exact mul_nonneg (h.speed_nonneg s ⟨hs.1.le, hs.2.le⟩) (h.forward s hs)
  have m0 : (0 : ℝ) ∈ Set.Icc 0 T' := ⟨le_refl _, hT'⟩
  have m1 : T' ∈ Set.Icc 0 T' := ⟨hT', le_refl _⟩
  have X0 : ∀ t ∈ Set.Icc 0 T', 0 ≤ X t := fun t ht => by
    have := mono m0 ht ht.1
    rwa [h.start.1] at this
  have XT : ∀ t ∈ Set.Icc 0 T', X t ≤ r * (ω * T - sin (ω * T)) := fun t ht => by
    have := mono ht m1 ht.2
    rwa [h.stop.1] at this
  -- the angle at which the cycloid is as far as the other descent
  obtain ⟨u, hu⟩ : ∃ u : ℝ → ℝ, u = fun t => a (X t / r) := ⟨_, rfl⟩
  have u0 : ∀ t ∈ Set.Icc 0 T', 0 ≤ u t := fun t ht => by
    rw [hu, ← a0]
    exact ma (div_nonneg (X0 t ht) hr.le)
  have uT : ∀ t ∈ Set.Icc 0 T', u t ≤ ω * T := fun t ht => by
    rw [hu]
    have := ma ((div_le_iff₀ hr).2 (by rw [mul_comm]; exact XT t ht) : X t / r ≤ ω * T - sin (ω * T))
    rwa [a2] at this
  have cu : ContinuousOn u (Set.Icc 0 T') := by
    rw [hu]
    exact ca.comp_continuousOn (h.continuous.1.div_const r)
  have hG : g ≠ 0 := hg.ne
  obtain ⟨D, hD⟩ : ∃ D : ℝ → ℝ, D = fun t => t - (u t / ω - cos (u t / 2) * (V t - 2 * r * ω * sin (u t / 2)) / g) := ⟨_, rfl⟩
  have cD : ContinuousOn D (Set.Icc 0 T') := by
    rw [hD]
    exact continuousOn_id.sub ((cu.div_const ω).sub (((continuous_cos.comp_continuousOn (cu.div_const 2)).mul
      (h.continuous.2.2.sub (continuousOn_const.mul (continuous_sin.comp_continuousOn (cu.div_const 2))))).div_const g))
  -- the last time at which the other descent is straight below the start
  obtain ⟨t₁, ⟨ht₁, hz⟩, hmax⟩ : ∃ t₁, IsGreatest {t ∈ Set.Icc 0 T' | X t ≤ 0} t₁ := by
    refine IsCompact.exists_isGreatest ?_ ⟨0, m0, h.start.1.le⟩
    exact isCompact_Icc.of_isClosed_subset (h.continuous.1.preimage_isClosed_of_isClosed isClosed_Icc isClosed_Iic)
      Set.inter_subset_left
  have before : D 0 ≤ D t₁ := by
    have eD : ∀ t ∈ Set.Icc 0 t₁, D t = t + V t / g := by
      intro t ht
      have ht' : t ∈ Set.Icc 0 T' := ⟨ht.1, ht.2.trans ht₁.2⟩
      have : X t = 0 := le_antisymm ((mono ht' ht₁ ht.2).trans hz) (X0 t ht')
      rw [hD]
      simp [hu, this, a0]
    rw [eD 0 ⟨le_refl _, ht₁.1⟩, eD t₁ ⟨ht₁.1, le_refl _⟩]
    refine monotoneOn_of_deriv_nonneg (f := fun t => t + V t / g) (convex_Icc 0 t₁) ?_ ?_ ?_ ⟨le_refl _, ht₁.1⟩ ⟨ht₁.1, le_refl _⟩ ht₁.1
    · exact continuousOn_id.add ((h.continuous.2.2.mono (Set.Icc_subset_Icc_right ht₁.2)).div_const g)
    · rw [interior_Icc]
      intro s hs
      exact ((hasDerivAt_id s).add ((h.motion s ⟨hs.1, hs.2.trans_le ht₁.2⟩).2.2.div_const g)).differentiableAt.differentiableWithinAt
    · rw [interior_Icc]
      intro s hs
      have d : HasDerivAt (fun t => t + V t / g) (1 + g * sin (Θ s) / g) s :=
        (hasDerivAt_id s).add ((h.motion s ⟨hs.1, hs.2.trans_le ht₁.2⟩).2.2.div_const g)
      rw [d.deriv, mul_div_cancel_left₀ _ hG]
      linarith [neg_one_le_sin (Θ s)]
  have after : D t₁ ≤ D T' := by
    have dD : ∀ s ∈ Set.Ioo t₁ T', ∃ d, 0 ≤ d ∧ HasDerivAt D d s := by
      intro s hs
      have hs' : s ∈ Set.Ioo 0 T' := ⟨ht₁.1.trans_lt hs.1, hs.2⟩
      have hs2 : s ∈ Set.Icc 0 T' := ⟨hs'.1.le, hs'.2.le⟩
      have Xs : 0 < X s := by
        by_contra hn
        exact absurd (hmax ⟨hs2, not_lt.1 hn⟩) (not_le.2 hs.1)
      have us : 0 < u s := by
        refine lt_of_le_of_ne (u0 s hs2) fun hn => ?_
        have k : a (X s / r) = 0 := by
          rw [hu] at hn
          exact hn.symm
        have := a1 (X s / r)
        rw [k, sin_zero, sub_zero] at this
        have := div_pos Xs hr
        linarith
      have hsin : 0 < sin (u s / 2) := sin_pos_of_pos_of_lt_pi (by linarith) (by linarith [uT s hs2])
      have hcos : 1 - cos (u s) = 2 * sin (u s / 2) ^ 2 := by
        have := cos_sq' (u s / 2)
        have k := cos_two_mul (u s / 2)
        rw [show 2 * (u s / 2) = u s by ring] at k
        linarith
      have hne : cos (u s) ≠ 1 := by
        intro hn
        rw [hn] at hcos
        have : 0 < sin (u s / 2) ^ 2 := by positivity
        linarith
      obtain ⟨d1, -, d3⟩ := h.motion s hs'
      have du : HasDerivAt u ((2 * sin (u s / 2) ^ 2)⁻¹ * (V s * cos (Θ s) / r)) s := by
        rw [← hcos]
        rw [hu] at hne ⊢
        exact HasDerivAt.comp s (da _ hne) (d1.div_const r)
      obtain ⟨u', hu'⟩ : ∃ u', u' = (2 * sin (u s / 2) ^ 2)⁻¹ * (V s * cos (Θ s) / r) := ⟨_, rfl⟩
      rw [← hu'] at du
      have dd : HasDerivAt D (1 - (u' / ω - ((-sin (u s / 2) * (u' / 2)) * (V s - 2 * r * ω * sin (u s / 2)) +
          cos (u s / 2) * (g * sin (Θ s) - 2 * r * ω * (cos (u s / 2) * (u' / 2)))) / g)) s := by
        rw [hD]
        exact (hasDerivAt_id s).sub ((du.div_const ω).sub (((du.div_const 2).cos.mul
          (d3.sub ((du.div_const 2).sin.const_mul (2 * r * ω)))).div_const g))
      refine ⟨_, ?_, dd⟩
      have key := rate_le_one (u := u s / 2) (v := V s / (2 * r * ω * sin (u s / 2))) (w := V s / (2 * r * ω)) (θ := Θ s) hsin.le
        (h.forward s hs') (by field_simp)
      refine (sub_nonneg.2 key).trans_eq ?_
      have hc2 := cos_sq' (u s / 2)
      have hg' : g = -(r * ω ^ 2) := by linarith
      rw [hu', hg']
      generalize sin (u s / 2) = S at *
      generalize cos (u s / 2) = C at *
      field_simp
      linear_combination (-2 * (r * ω * cos (Θ s) * V s)) * hc2
    refine monotoneOn_of_deriv_nonneg (convex_Icc t₁ T') (cD.mono (Set.Icc_subset_Icc_left ht₁.1)) ?_ ?_ ⟨le_refl _, ht₁.2⟩
      ⟨ht₁.2, le_refl _⟩ ht₁.2
    · rw [interior_Icc]
      intro s hs
      obtain ⟨d, -, hd⟩ := dD s hs
      exact hd.differentiableAt.differentiableWithinAt
    · rw [interior_Icc]
      intro s hs
      obtain ⟨d, h0, hd⟩ := dD s hs
      rw [hd.deriv]
      exact h0
  have e0 : D 0 = 0 := by
    rw [hD]
    simp [hu, h.start.1, h.start.2.2, a0]
  have eT : D T' = T' - T := by
    have e1 : u T' = ω * T := by
      rw [hu]
      show a (X T' / r) = ω * T
      rw [h.stop.1, show (rolled r ω T).1 / r = ω * T - sin (ω * T) by rw [rolled]; field_simp, a2]
    have hs : 0 < sin (ω * T / 2) := sin_pos_of_pos_of_lt_pi (by positivity) (by linarith)
    have e2 : V T' = 2 * r * ω * sin (ω * T / 2) := by
      refine (sq_eq_sq₀ (h.speed_nonneg T' m1) (by positivity)).1 ?_
      have k := cos_sq' (ω * T / 2)
      have k2 := cos_two_mul (ω * T / 2)
      rw [show 2 * (ω * T / 2) = ω * T by ring] at k2
      rw [h.speed T' m1, h.stop.2, rolled, k2, k]
      have hg' : g = -(r * ω ^ 2) := by linarith
      rw [hg']
      ring
    rw [hD]
    show T' - (u T' / ω - cos (u T' / 2) * (V T' - 2 * r * ω * sin (u T' / 2)) / g) = T' - T
    rw [e1, e2]
    field_simp
    ring
  linarith

/-- A descent that is not empty goes to the right. -/
theorem Descends.right {g T x1 y1 : ℝ} {X Y V Θ : ℝ → ℝ} (h : Descends g T x1 y1 X Y V Θ) (hT : 0 ≤ T) : 0 ≤ x1 := by
  have mono : MonotoneOn X (Set.Icc 0 T) := by
    refine monotoneOn_of_deriv_nonneg (convex_Icc 0 T) h.continuous.1 ?_ ?_
    · rw [interior_Icc]
      exact fun s hs => (h.motion s hs).1.differentiableAt.differentiableWithinAt
    · rw [interior_Icc]
      intro s hs
      rw [(h.motion s hs).1.deriv]
      exact mul_nonneg (h.speed_nonneg s ⟨hs.1.le, hs.2.le⟩) (h.forward s hs)
  have := mono ⟨le_refl _, hT⟩ ⟨hT, le_refl _⟩ hT
  rwa [h.start.1, h.stop.1] at this

/-- A cycloid is the fastest descent to each of its points before it returns to the height of its start. -/
theorem rolled_fastest {g r ω T T' : ℝ} (hg : g < 0) (hr : 0 < r) (hrω : r * ω ^ 2 = -g)
    (arch : ∀ t ∈ Set.Ioc 0 T, (rolled r ω t).2 ≠ 0) (hT' : 0 ≤ T') {X Y V Θ : ℝ → ℝ}
    (h : Descends g T' (rolled r ω T).1 (rolled r ω T).2 X Y V Θ) : T ≤ T' := by
  rcases le_or_gt T 0 with hT | hT
  · linarith
  have hω : 0 < ω := by
    by_contra hn
    have k := h.right hT'
    have hω : ω < 0 := by
      refine lt_of_le_of_ne (not_lt.1 hn) ?_
      rintro rfl
      simp at hrω
      linarith
    have := sub_sin_strictMono (mul_neg_of_neg_of_pos hω hT)
    simp only [sin_zero, sub_zero] at this
    have k2 : (rolled r ω T).1 = r * (ω * T - sin (ω * T)) := rfl
    nlinarith
  refine cycloid_fastest hg hr hω hrω hT ?_ hT' h
  by_contra hn
  refine arch (2 * π / ω) ⟨by positivity, (div_le_iff₀ hω).2 (by linarith [mul_comm ω T])⟩ ?_
  rw [rolled, show ω * (2 * π / ω) = 2 * π by field_simp]
  simp

/-- The first arch of a cycloid is a descent. -/
theorem rolled_descends {g r ω T : ℝ} (hω : 0 < ω) (hrω : r * ω ^ 2 = -g) (hr : 0 < r) (hT2 : ω * T ≤ 2 * π) :
    Descends g T (rolled r ω T).1 (rolled r ω T).2 (fun t => (rolled r ω t).1) (fun t => (rolled r ω t).2)
      (fun t => 2 * r * ω * sin (ω / 2 * t)) (fun t => ω / 2 * t - π / 2) := by
  have lin : ∀ (k t : ℝ), HasDerivAt (fun τ => k * τ) k t := fun k t => by simpa using (hasDerivAt_id t).const_mul k
  have dbl : ∀ t, ω * t = 2 * (ω / 2 * t) := fun t => by ring
  have nn : ∀ t ∈ Set.Icc 0 T, 0 ≤ sin (ω / 2 * t) := by
    intro t ht
    have := mul_le_mul_of_nonneg_left ht.2 hω.le
    exact sin_nonneg_of_nonneg_of_le_pi (mul_nonneg (by positivity) ht.1) (by linarith)
  refine ⟨by simp [rolled], ⟨rfl, rfl⟩, ⟨?_, ?_, ?_⟩, ?_, ?_, ?_⟩
  · unfold rolled; fun_prop
  · unfold rolled; fun_prop
  · fun_prop
  · intro t _
    rw [cos_sub_pi_div_two, sin_sub_pi_div_two]
    refine ⟨?_, ?_, ?_⟩
    · refine (((lin ω t).sub (lin ω t).sin).const_mul r).congr_deriv ?_
      rw [dbl t, cos_two_mul, cos_sq']
      ring
    · refine (((((lin ω t).cos).const_sub 1).const_mul r).neg).congr_deriv ?_
      rw [dbl t, sin_two_mul]
      ring
    · refine (((lin (ω / 2) t).sin).const_mul (2 * r * ω)).congr_deriv ?_
      linear_combination (cos (ω / 2 * t)) * hrω
  · intro t ht
    have := nn t ht
    positivity
  · intro t ht
    rw [cos_sub_pi_div_two]
    exact nn t ⟨ht.1.le, ht.2.le⟩

end Beluga.E2E
