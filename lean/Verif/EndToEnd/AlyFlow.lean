import Mathlib.Analysis.Real.Pi.Bounds
import Mathlib.MeasureTheory.Integral.IntervalIntegral.FundThmCalculus
import Mathlib.Topology.ContinuousMap.Bounded.Normed
import Mathlib.Topology.MetricSpace.Contracting
import Verif.EndToEnd.AlyBack

/-!
# The Aly-Chan example: solutions exist (C101)

The first-order conditions have a solution for every start, bound and activator.  The control is a function `G` of the price of the velocity,
and the price is found by integrating the control.  With the price multiplied by a small enough number this is a contraction; and because the
second variation is positive, a solution depends on a disturbance of the price in a Lipschitz way, whatever the multiple is, so that the
multiple can be increased to one in finitely many steps of the same size.
-/

namespace Beluga.E2E

/-! ### The control as a function of the price -/

theorem steep (e N s : ℝ) : HasDerivAt (slopeAt 0 e (-N) N) (e * (Real.pi / (N - -N)) * (√(1 + s ^ 2) + s ^ 2 / √(1 + s ^ 2))) s :=
  (slopeAt_deriv 0 e (-N) N s).congr_deriv (by ring)

theorem answer_exists {e N : ℝ} (he : 0 < e) (hN : 0 < N) : ∃ G : ℝ → ℝ, Differentiable ℝ G ∧ (∀ p, -N < G p ∧ G p < N) ∧
    (∀ p q, |G p - G q| ≤ (2 * N / Real.pi) ^ 2 / e * |p - q|) ∧ Monotone G ∧ ∀ p, HasDerivAt (fine e (-N) N) p (G p) := by
  have hl : -N < N := by linarith
  have hp := Real.pi_pos
  have hk : 0 < e * (Real.pi / (N - -N)) := mul_pos he (div_pos hp (by linarith))
  have pos : ∀ s : ℝ, 0 < e * (Real.pi / (N - -N)) * (√(1 + s ^ 2) + s ^ 2 / √(1 + s ^ 2)) := fun s => by positivity
  have root : ∀ s : ℝ, 1 ≤ √(1 + s ^ 2) := fun s => Real.one_le_sqrt.2 (by nlinarith [sq_nonneg s])
  have sm : StrictMono (slopeAt 0 e (-N) N) := strictMono_of_deriv_pos fun s => by
    rw [(steep e N s).deriv]
    exact pos s
  have hc : Continuous (slopeAt 0 e (-N) N) := continuous_iff_continuousAt.2 fun s => (steep e N s).continuousAt
  have surj : Function.Surjective (slopeAt 0 e (-N) N) := by
    refine hc.surjective ?_ ?_
    · refine Filter.tendsto_atTop_mono' _ ?_ (Filter.tendsto_id.const_mul_atTop hk)
      filter_upwards [Filter.eventually_ge_atTop 0] with s hs
      have k2 := mul_le_mul_of_nonneg_left (le_mul_of_one_le_right hs (root s)) hk.le
      simp only [slopeAt, id]
      linarith
    · refine Filter.tendsto_atBot_mono' _ ?_ (Filter.tendsto_id.const_mul_atBot hk)
      filter_upwards [Filter.eventually_le_atBot 0] with s hs
      have k3 : s * √(1 + s ^ 2) ≤ s := by nlinarith [root s]
      have k2 := mul_le_mul_of_nonneg_left k3 hk.le
      simp only [slopeAt, id]
      linarith
  obtain ⟨F, hF⟩ : ∃ F : ℝ ≃o ℝ, ∀ s, F s = slopeAt 0 e (-N) N s := ⟨sm.orderIsoOfSurjective _ surj, fun _ => rfl⟩
  have vm : Monotone (volt (-N) N) := monotone_of_deriv_nonneg (fun s => (volt_deriv (-N) N s).differentiableAt) fun s => by
    rw [(volt_deriv (-N) N s).deriv]
    have := sub_pos.2 hl
    positivity
  have back : ∀ p, slopeAt 0 e (-N) N (F.symm p) = p := fun p => by rw [← hF, F.apply_symm_apply]
  have mono : Monotone fun p => volt (-N) N (F.symm p) := fun p q h => vm (F.symm.monotone h)
  have um : Monotone fun s => (2 * N / Real.pi) ^ 2 / e * slopeAt 0 e (-N) N s - volt (-N) N s := by
    have d : ∀ s, HasDerivAt (fun s => (2 * N / Real.pi) ^ 2 / e * slopeAt 0 e (-N) N s - volt (-N) N s)
        ((2 * N / Real.pi) * ((√(1 + s ^ 2) + s ^ 2 / √(1 + s ^ 2)) - 1 / (1 + s ^ 2))) s := by
      intro s
      refine (((steep e N s).const_mul _).sub (volt_deriv (-N) N s)).congr_deriv ?_
      have : N - -N = 2 * N := by ring
      rw [this]
      generalize √(1 + s ^ 2) + s ^ 2 / √(1 + s ^ 2) = A
      field_simp
    refine monotone_of_deriv_nonneg (fun s => (d s).differentiableAt) fun s => ?_
    rw [(d s).deriv]
    have k1 := root s
    have k2 : 0 ≤ s ^ 2 / √(1 + s ^ 2) := by positivity
    have k3 : 1 / (1 + s ^ 2) ≤ 1 := (div_le_one (by positivity)).2 (by nlinarith [sq_nonneg s])
    exact mul_nonneg (by positivity) (by linarith)
  have gap : ∀ p q, p ≤ q → volt (-N) N (F.symm q) - volt (-N) N (F.symm p) ≤ (2 * N / Real.pi) ^ 2 / e * (q - p) := by
    intro p q h
    have k := um (F.symm.monotone h)
    simp only [back] at k
    linarith
  refine ⟨fun p => volt (-N) N (F.symm p), ?_, fun p => volt_mem hl _, ?_, mono, ?_⟩
  · intro p
    have d1 : HasDerivAt F.symm _ p := HasDerivAt.of_local_left_inverse (f := slopeAt 0 e (-N) N) F.symm.continuous.continuousAt
      (steep e N (F.symm p)) (pos _).ne' (Filter.Eventually.of_forall back)
    exact DifferentiableAt.comp (g := volt (-N) N) (f := F.symm) p (volt_deriv (-N) N _).differentiableAt d1.differentiableAt
  · intro p q
    rcases le_total p q with h | h
    · rw [abs_sub_comm, abs_sub_comm p q, abs_of_nonneg (sub_nonneg.2 (mono h)), abs_of_nonneg (sub_nonneg.2 h)]
      exact gap p q h
    · rw [abs_of_nonneg (sub_nonneg.2 (mono h)), abs_of_nonneg (sub_nonneg.2 h)]
      exact gap q p h
  · intro p
    have k := fine_slope (e := e) hl (F.symm p)
    have k2 := back p
    simp only [slopeAt, zero_mul, zero_add] at k2
    exact k.congr_deriv k2

/-! ### The motion and the prices of a control -/

/-- The integral that is `c` at `a`. -/
noncomputable def prim (a c : ℝ) (f : ℝ → ℝ) (t : ℝ) : ℝ := c + ∫ s in a..t, f s

theorem prim_self (a c : ℝ) (f : ℝ → ℝ) : prim a c f a = c := by simp [prim]

theorem prim_deriv (a c : ℝ) {f : ℝ → ℝ} (hf : Continuous f) (t : ℝ) : HasDerivAt (prim a c f) (f t) t :=
  (intervalIntegral.integral_hasDerivAt_right (hf.intervalIntegrable _ _) (hf.stronglyMeasurableAtFilter _ _) hf.continuousAt).const_add c

theorem prim_continuous (a c : ℝ) {f : ℝ → ℝ} (hf : Continuous f) : Continuous (prim a c f) :=
  continuous_iff_continuousAt.2 fun t => (prim_deriv a c hf t).continuousAt

theorem prim_gap {a c T d : ℝ} {f g : ℝ → ℝ} (hf : Continuous f) (hg : Continuous g) (hd : ∀ s ∈ Set.Icc 0 T, |f s - g s| ≤ d) (h0 : 0 ≤ d)
    (ha : a ∈ Set.Icc 0 T) : ∀ t ∈ Set.Icc 0 T, |prim a c f t - prim a c g t| ≤ T * d := by
  intro t ht
  have e1 : prim a c f t - prim a c g t = ∫ s in a..t, (f s - g s) := by
    rw [intervalIntegral.integral_sub (hf.intervalIntegrable _ _) (hg.intervalIntegrable _ _)]
    simp [prim]
  rw [e1]
  have k := intervalIntegral.norm_integral_le_of_norm_le_const (a := a) (b := t) (C := d) (f := fun s => f s - g s) (by
    intro s hs
    refine hd s ?_
    rw [Set.uIoc, Set.mem_Ioc] at hs
    exact ⟨(le_min ha.1 ht.1).trans hs.1.le, hs.2.trans (max_le ha.2 ht.2)⟩)
  rw [Real.norm_eq_abs] at k
  have k2 : |t - a| ≤ T := abs_le.2 ⟨by linarith [ha.2, ht.1], by linarith [ha.1, ht.2]⟩
  calc _ ≤ d * |t - a| := k
    _ ≤ d * T := mul_le_mul_of_nonneg_left k2 h0
    _ = T * d := mul_comm _ _

/-- The velocity, the place and their prices. -/
noncomputable def swift (v₀ : ℝ) (u : ℝ → ℝ) : ℝ → ℝ := prim 0 v₀ u

noncomputable def spot (x₀ v₀ : ℝ) (u : ℝ → ℝ) : ℝ → ℝ := prim 0 x₀ (swift v₀ u)

noncomputable def spotPrice (T x₀ v₀ : ℝ) (u : ℝ → ℝ) : ℝ → ℝ := prim T 0 (spot x₀ v₀ u)

noncomputable def swiftPrice (T x₀ v₀ : ℝ) (u : ℝ → ℝ) : ℝ → ℝ := prim T 0 fun t => -(spotPrice T x₀ v₀ u t + swift v₀ u t)

theorem price_gap {T x₀ v₀ d : ℝ} (hT : 0 ≤ T) {f g : ℝ → ℝ} (hf : Continuous f) (hg : Continuous g) (h0 : 0 ≤ d)
    (g1 : ∀ s ∈ Set.Icc 0 T, |swift v₀ f s - swift v₀ g s| ≤ d) :
    ∀ t ∈ Set.Icc 0 T, |swiftPrice T x₀ v₀ f t - swiftPrice T x₀ v₀ g t| ≤ T * (T * (T * d) + d) := by
  have z0 : (0 : ℝ) ∈ Set.Icc 0 T := ⟨le_refl _, hT⟩
  have zT : T ∈ Set.Icc 0 T := ⟨hT, le_refl _⟩
  have c1 : ∀ {f : ℝ → ℝ}, Continuous f → Continuous (swift v₀ f) := fun h => prim_continuous _ _ h
  have c2 : ∀ {f : ℝ → ℝ}, Continuous f → Continuous (spot x₀ v₀ f) := fun h => prim_continuous _ _ (c1 h)
  have c3 : ∀ {f : ℝ → ℝ}, Continuous f → Continuous (spotPrice T x₀ v₀ f) := fun h => prim_continuous _ _ (c2 h)
  have g2 := prim_gap (c := x₀) (c1 hf) (c1 hg) g1 h0 z0
  have g3 := prim_gap (c := 0) (c2 hf) (c2 hg) g2 (by positivity) zT
  refine prim_gap (c := 0) ((c3 hf).add (c1 hf)).neg ((c3 hg).add (c1 hg)).neg ?_ (by positivity) zT
  intro s hs
  have k1 := abs_le.1 (g1 s hs)
  have k3 := abs_le.1 (g3 s hs)
  simp only [swift, spotPrice] at *
  exact abs_le.2 ⟨by linarith [k1.1, k1.2, k3.1, k3.2], by linarith [k1.1, k1.2, k3.1, k3.2]⟩

theorem swiftPrice_gap {T x₀ v₀ d : ℝ} (hT : 0 ≤ T) {f g : ℝ → ℝ} (hf : Continuous f) (hg : Continuous g) (h0 : 0 ≤ d)
    (hd : ∀ s ∈ Set.Icc 0 T, |f s - g s| ≤ d) :
    ∀ t ∈ Set.Icc 0 T, |swiftPrice T x₀ v₀ f t - swiftPrice T x₀ v₀ g t| ≤ T * (T * (T * (T * d)) + T * d) :=
  price_gap hT hf hg (by positivity) (prim_gap hf hg hd h0 ⟨le_refl _, hT⟩)

theorem swiftPrice_continuous (T x₀ v₀ : ℝ) {f : ℝ → ℝ} (hf : Continuous f) : Continuous (swiftPrice T x₀ v₀ f) :=
  prim_continuous _ _ ((prim_continuous _ _ (prim_continuous _ _ (prim_continuous _ _ hf))).add (prim_continuous _ _ hf)).neg

/-- The time that is `t` in the interval and goes on as a constant. -/
noncomputable def held (T t : ℝ) : ℝ := max 0 (min T t)

theorem held_mem {T : ℝ} (hT : 0 ≤ T) (t : ℝ) : held T t ∈ Set.Icc 0 T := ⟨le_max_left _ _, max_le hT (min_le_left _ _)⟩

theorem held_eq {T t : ℝ} (ht : t ∈ Set.Icc 0 T) : held T t = t := by rw [held, min_eq_right ht.2, max_eq_right ht.1]

theorem held_continuous (T : ℝ) : Continuous (held T) := by
  unfold held
  fun_prop

/-- The control `u` answers the `s`-fold of its own price, disturbed by `h`. -/
def Answers (G : ℝ → ℝ) (T x₀ v₀ s : ℝ) (h u : ℝ → ℝ) : Prop := ∀ t, u t = G (h (held T t) - s * swiftPrice T x₀ v₀ u (held T t))

/-- The answer depends on the disturbance in a Lipschitz way, whatever the multiple is. -/
theorem Answers.gap {G : ℝ → ℝ} (mono : Monotone G) {c : ℝ} (hc : 0 < c) (lip : ∀ p q, |G p - G q| ≤ 1 / c * |p - q|) {T : ℝ} (h0 : 0 < T)
    (hT : T < Real.pi / 2) {x₀ v₀ s : ℝ} (hs : 0 ≤ s) (hs1 : s ≤ 1) {h k u v : ℝ → ℝ} (hu : Answers G T x₀ v₀ s h u) (hv : Answers G T x₀ v₀ s k v)
    (cu : Continuous u) (cv : Continuous v) {H : ℝ} (hH : 0 < H) (hd : ∀ t ∈ Set.Icc 0 T, |h t - k t| ≤ H) :
    ∀ t, |u t - v t| ≤ 1 / c * (H + T * (T * (T * (T * (H / c))) + T * (H / c))) := by
  have z0 : (0 : ℝ) ∈ Set.Icc 0 T := ⟨le_refl _, h0.le⟩
  have zT : T ∈ Set.Icc 0 T := ⟨h0.le, le_refl _⟩
  have c1 : ∀ {f : ℝ → ℝ}, Continuous f → Continuous (swift v₀ f) := fun h => prim_continuous _ _ h
  have c2 : ∀ {f : ℝ → ℝ}, Continuous f → Continuous (spot x₀ v₀ f) := fun h => prim_continuous _ _ (c1 h)
  have c3 : ∀ {f : ℝ → ℝ}, Continuous f → Continuous (spotPrice T x₀ v₀ f) := fun h => prim_continuous _ _ (c2 h)
  have d1 : ∀ {f : ℝ → ℝ}, Continuous f → ∀ t, HasDerivAt (swift v₀ f) (f t) t := fun h => prim_deriv _ _ h
  have d2 : ∀ {f : ℝ → ℝ}, Continuous f → ∀ t, HasDerivAt (spot x₀ v₀ f) (swift v₀ f t) t := fun h => prim_deriv _ _ (c1 h)
  have d3 : ∀ {f : ℝ → ℝ}, Continuous f → ∀ t, HasDerivAt (spotPrice T x₀ v₀ f) (spot x₀ v₀ f t) t := fun h => prim_deriv _ _ (c2 h)
  have d4 : ∀ {f : ℝ → ℝ}, Continuous f → ∀ t, HasDerivAt (swiftPrice T x₀ v₀ f) (-(spotPrice T x₀ v₀ f t + swift v₀ f t)) t :=
    fun h => prim_deriv _ _ ((c3 h).add (c1 h)).neg
  obtain ⟨E, hE⟩ : ∃ E : ℝ → ℝ, E = prim 0 0 fun t => (u t - v t) ^ 2 := ⟨_, rfl⟩
  have dE : ∀ t, HasDerivAt E ((u t - v t) ^ 2) t := by
    rw [hE]
    exact prim_deriv _ _ ((cu.sub cv).pow 2)
  have E0 : E 0 = 0 := by
    rw [hE]
    exact prim_self _ _ _
  have energy : ∀ t ∈ Set.Icc 0 T, c / 2 * (u t - v t) ^ 2 ≤ H ^ 2 / (2 * c) -
      s * ((swiftPrice T x₀ v₀ u t - swiftPrice T x₀ v₀ v t) * (u t - v t)) := by
    intro t ht
    have e1 := hu t
    have e2 := hv t
    rw [held_eq ht] at e1 e2
    obtain ⟨p, hp⟩ : ∃ p, p = h t - s * swiftPrice T x₀ v₀ u t := ⟨_, rfl⟩
    obtain ⟨q, hq⟩ : ∃ q, q = k t - s * swiftPrice T x₀ v₀ v t := ⟨_, rfl⟩
    rw [← hp] at e1
    rw [← hq] at e2
    have l := lip p q
    rw [← e1, ← e2] at l
    have l2 : c * |u t - v t| ≤ |p - q| := by
      rw [one_div, ← div_eq_inv_mul, le_div_iff₀ hc] at l
      linarith
    have sign : |p - q| * |u t - v t| = (p - q) * (u t - v t) := by
      rw [← abs_mul, abs_of_nonneg]
      rcases le_total p q with hpq | hpq
      · have := mono hpq
        rw [← e1, ← e2] at this
        nlinarith
      · have := mono hpq
        rw [← e1, ← e2] at this
        nlinarith
    have l3 := mul_le_mul_of_nonneg_right l2 (abs_nonneg (u t - v t))
    rw [sign, mul_assoc, abs_mul_abs_self, hp, hq] at l3
    have m1 : (h t - k t) * (u t - v t) ≤ H ^ 2 / (2 * c) + c / 2 * (u t - v t) ^ 2 := by
      have a1 : (h t - k t) * (u t - v t) ≤ H * |u t - v t| := by
        calc (h t - k t) * (u t - v t) ≤ |(h t - k t) * (u t - v t)| := le_abs_self _
          _ = |h t - k t| * |u t - v t| := abs_mul _ _
          _ ≤ H * |u t - v t| := mul_le_mul_of_nonneg_right (hd t ht) (abs_nonneg _)
      have a2 : H * |u t - v t| ≤ H ^ 2 / (2 * c) + c / 2 * |u t - v t| ^ 2 := by
        have : H ^ 2 / (2 * c) + c / 2 * |u t - v t| ^ 2 - H * |u t - v t| = (H - c * |u t - v t|) ^ 2 / (2 * c) := by
          field_simp
          ring
        have : 0 ≤ (H - c * |u t - v t|) ^ 2 / (2 * c) := by positivity
        linarith
      rw [sq_abs] at a2
      linarith
    nlinarith
  have ET : E T ≤ T * H ^ 2 / c ^ 2 := by
    obtain ⟨Ψ, hΨ⟩ : ∃ Ψ : ℝ → ℝ, Ψ = fun t => (spotPrice T x₀ v₀ u t - spotPrice T x₀ v₀ v t) * (spot x₀ v₀ u t - spot x₀ v₀ v t) +
      (swiftPrice T x₀ v₀ u t - swiftPrice T x₀ v₀ v t) * (swift v₀ u t - swift v₀ v t) +
      Real.tan (T - t) * (spot x₀ v₀ u t - spot x₀ v₀ v t) ^ 2 := ⟨_, rfl⟩
    have d : ∀ t ∈ Set.Icc 0 T, ∃ D, HasDerivAt Ψ D t ∧ D ≤ (swiftPrice T x₀ v₀ u t - swiftPrice T x₀ v₀ v t) * (u t - v t) := by
      intro t ht
      rw [hΨ]
      refine ⟨_, ((((d3 cu t).sub (d3 cv t)).mul ((d2 cu t).sub (d2 cv t))).add (((d4 cu t).sub (d4 cv t)).mul ((d1 cu t).sub (d1 cv t)))).add
        ((tan_rate hT ht).mul (((d2 cu t).sub (d2 cv t)).pow 2)), ?_⟩
      simp only [Pi.sub_apply, Pi.pow_apply]
      norm_num
      nlinarith [sq_nonneg ((swift v₀ u t - swift v₀ v t) - Real.tan (T - t) * (spot x₀ v₀ u t - spot x₀ v₀ v t))]
    choose! D hD hle using d
    have dR : ∀ t ∈ Set.Icc 0 T, HasDerivAt (fun t => c / 2 * E t + s * Ψ t - H ^ 2 / (2 * c) * t)
        (c / 2 * (u t - v t) ^ 2 + s * D t - H ^ 2 / (2 * c) * 1) t := fun t ht =>
      (((dE t).const_mul _).add ((hD t ht).const_mul s)).sub ((hasDerivAt_id t).const_mul _)
    have anti : AntitoneOn (fun t => c / 2 * E t + s * Ψ t - H ^ 2 / (2 * c) * t) (Set.Icc 0 T) := by
      refine antitoneOn_of_deriv_nonpos (convex_Icc 0 T) (fun t ht => (dR t ht).continuousAt.continuousWithinAt) (fun t ht => ?_) fun t ht => ?_
      · rw [interior_Icc] at ht
        exact (dR t ⟨ht.1.le, ht.2.le⟩).differentiableAt.differentiableWithinAt
      · rw [interior_Icc] at ht
        have ht : t ∈ Set.Icc 0 T := ⟨ht.1.le, ht.2.le⟩
        rw [(dR t ht).deriv]
        have := energy t ht
        have := mul_le_mul_of_nonneg_left (hle t ht) hs
        linarith
    have a0 : Ψ 0 = 0 := by simp [hΨ, spot, swift, prim_self]
    have aT : Ψ T = 0 := by simp [hΨ, spotPrice, swiftPrice, prim_self]
    have fin := anti z0 zT h0.le
    simp only [a0, aT, E0, mul_zero, add_zero, sub_zero] at fin
    have e1 : T * H ^ 2 / c ^ 2 = 2 / c * (H ^ 2 / (2 * c) * T) := by
      field_simp
    have e2 : E T = 2 / c * (c / 2 * E T) := by
      field_simp
    rw [e1, e2]
    exact mul_le_mul_of_nonneg_left (by linarith) (by positivity)
  have Em : Monotone E := monotone_of_deriv_nonneg (fun t => (dE t).differentiableAt) fun t => by
    rw [(dE t).deriv]
    positivity
  obtain ⟨g, hg⟩ : ∃ g : ℝ → ℝ, g = fun t => c / (2 * H) * E t + H / (2 * c) * t := ⟨_, rfl⟩
  have dg : ∀ t, HasDerivAt g (c / (2 * H) * (u t - v t) ^ 2 + H / (2 * c) * 1) t := by
    rw [hg]
    exact fun t => ((dE t).const_mul _).add ((hasDerivAt_id t).const_mul _)
  have steepg : ∀ t, |u t - v t| ≤ c / (2 * H) * (u t - v t) ^ 2 + H / (2 * c) * 1 := by
    intro t
    rw [← sq_abs (u t - v t)]
    have : c / (2 * H) * |u t - v t| ^ 2 + H / (2 * c) * 1 - |u t - v t| = (c * |u t - v t| - H) ^ 2 / (2 * c * H) := by
      field_simp
      ring
    have : 0 ≤ (c * |u t - v t| - H) ^ 2 / (2 * c * H) := by positivity
    linarith
  have g0 : g 0 = 0 := by simp [hg, E0]
  have gT : ∀ t ∈ Set.Icc 0 T, g t ≤ T * (H / c) := by
    intro t ht
    have k1 := mul_le_mul_of_nonneg_left ((Em ht.2).trans ET) (by positivity : 0 ≤ c / (2 * H))
    have k2 := mul_le_mul_of_nonneg_left ht.2 (by positivity : 0 ≤ H / (2 * c))
    have e1 : c / (2 * H) * (T * H ^ 2 / c ^ 2) + H / (2 * c) * T = T * (H / c) := by
      field_simp
      ring
    simp only [hg]
    linarith
  have fast : ∀ t ∈ Set.Icc 0 T, |swift v₀ u t - swift v₀ v t| ≤ T * (H / c) := by
    intro t ht
    have up : Monotone fun t => g t - (swift v₀ u t - swift v₀ v t) := by
      have dd : ∀ t, HasDerivAt (fun t => g t - (swift v₀ u t - swift v₀ v t)) _ t := fun t => (dg t).sub ((d1 cu t).sub (d1 cv t))
      refine monotone_of_deriv_nonneg (fun t => (dd t).differentiableAt) fun t => ?_
      rw [(dd t).deriv]
      linarith [steepg t, (abs_le.1 (le_refl |u t - v t|)).2]
    have dn : Monotone fun t => g t + (swift v₀ u t - swift v₀ v t) := by
      have dd : ∀ t, HasDerivAt (fun t => g t + (swift v₀ u t - swift v₀ v t)) _ t := fun t => (dg t).add ((d1 cu t).sub (d1 cv t))
      refine monotone_of_deriv_nonneg (fun t => (dd t).differentiableAt) fun t => ?_
      rw [(dd t).deriv]
      linarith [steepg t, (abs_le.1 (le_refl |u t - v t|)).1]
    have k1 := up ht.1
    have k2 := dn ht.1
    have e0 : swift v₀ u 0 - swift v₀ v 0 = 0 := by simp [swift, prim_self]
    simp only [g0, e0, sub_zero, add_zero] at k1 k2
    have := gT t ht
    exact abs_le.2 ⟨by linarith, by linarith⟩
  have gq := price_gap (x₀ := x₀) h0.le cu cv (by positivity) fast
  intro t
  rw [hu t, hv t]
  refine (lip _ _).trans (mul_le_mul_of_nonneg_left ?_ (by positivity))
  have hm := held_mem h0.le t
  generalize held T t = τ at hm
  have q1 := abs_le.1 (hd τ hm)
  have q2 := gq τ hm
  have q3 : |s * (swiftPrice T x₀ v₀ u τ - swiftPrice T x₀ v₀ v τ)| ≤ T * (T * (T * (T * (H / c))) + T * (H / c)) := by
    rw [abs_mul, abs_of_nonneg hs]
    exact (mul_le_of_le_one_left (abs_nonneg _) hs1).trans q2
  have q4 := abs_le.1 q3
  exact abs_le.2 ⟨by linarith [q1.1, q1.2, q4.1, q4.2], by linarith [q1.1, q1.2, q4.1, q4.2]⟩

/-- Every disturbance has an answer to the `s`-fold of the price. -/
def Answered (G : ℝ → ℝ) (T x₀ v₀ s : ℝ) : Prop :=
  ∀ h : ℝ → ℝ, Continuous h → ∃ u : BoundedContinuousFunction ℝ ℝ, Answers G T x₀ v₀ s h u

/-- The multiple can be increased by a step whose size does not depend on it. -/
theorem Answered.step {G : ℝ → ℝ} (mono : Monotone G) {c : ℝ} (hc : 0 < c) (lip : ∀ p q, |G p - G q| ≤ 1 / c * |p - q|) {T : ℝ} (h0 : 0 < T)
    (hT : T < Real.pi / 2) {x₀ v₀ s : ℝ} (hs : 0 ≤ s) (hs1 : s ≤ 1) {δ : ℝ} (hδ : 0 < δ)
    (small : δ * (1 / c * (1 + T * (T * (T * (T / c)) + T / c)) * (T * (T * (T * T) + T))) ≤ 1 / 2)
    (hA : Answered G T x₀ v₀ s) : Answered G T x₀ v₀ (s + δ) := by
  intro h ch
  have cq : ∀ u : BoundedContinuousFunction ℝ ℝ, Continuous fun t => h t - δ * swiftPrice T x₀ v₀ u t := fun u =>
    ch.sub (continuous_const.mul (swiftPrice_continuous _ _ _ u.continuous))
  choose Θ hΘ using fun u : BoundedContinuousFunction ℝ ℝ => hA _ (cq u)
  have con : ContractingWith (1 / 2) Θ := by
    refine ⟨by
      rw [← NNReal.coe_lt_coe]
      norm_num, LipschitzWith.of_dist_le_mul fun u v => ?_⟩
    have key : ∀ r, dist u v < r → dist (Θ u) (Θ v) ≤ 1 / 2 * r := by
      intro r hr
      have r0 : 0 < r := lt_of_le_of_lt dist_nonneg hr
      rw [BoundedContinuousFunction.dist_le (by positivity)]
      intro t
      rw [Real.dist_eq]
      have hH : 0 < δ * (T * (T * (T * (T * r)) + T * r)) := by positivity
      have k := (hΘ u).gap mono hc lip h0 hT hs hs1 (hΘ v) (Θ u).continuous (Θ v).continuous hH (by
        intro t ht
        have q := swiftPrice_gap (x₀ := x₀) (v₀ := v₀) h0.le u.continuous v.continuous r0.le (fun s _ => by
          have := BoundedContinuousFunction.dist_coe_le_dist (f := u) (g := v) s
          rw [Real.dist_eq] at this
          exact this.trans hr.le) t ht
        have e1 : h t - δ * swiftPrice T x₀ v₀ u t - (h t - δ * swiftPrice T x₀ v₀ v t) =
            -(δ * (swiftPrice T x₀ v₀ u t - swiftPrice T x₀ v₀ v t)) := by ring
        rw [e1, abs_neg, abs_mul, abs_of_pos hδ]
        exact mul_le_mul_of_nonneg_left q hδ.le) t
      refine k.trans (Eq.trans_le ?_ (mul_le_mul_of_nonneg_right small r0.le))
      field_simp
    have lim := ge_of_tendsto (Filter.Tendsto.const_mul (1 / 2 : ℝ) (Filter.tendsto_id.mono_left nhdsWithin_le_nhds :
      Filter.Tendsto id (nhdsWithin (dist u v) (Set.Ioi (dist u v))) (nhds (dist u v))))
      (Filter.eventually_of_mem self_mem_nhdsWithin fun r hr => key r hr)
    refine lim.trans (le_of_eq ?_)
    norm_num
  obtain ⟨u, hu⟩ : ∃ u, Θ u = u := ⟨_, con.fixedPoint_isFixedPt⟩
  refine ⟨u, fun t => ?_⟩
  have k := hΘ u t
  rw [hu] at k
  rw [k]
  congr 1
  ring

/-- There is a motion from every start that satisfies the first-order conditions. -/
theorem priced_exists {e N : ℝ} (hN : 0 < N) (he : 0 < e) (x₀ v₀ c₀ : ℝ) : ∃ X V C W P Q : ℝ → ℝ,
    Priced (fine e (-N) N) (3.1415 / 2) X V C W P Q ∧ X 0 = x₀ ∧ V 0 = v₀ ∧ C 0 = c₀ ∧ (∀ t, -N < W t ∧ W t < N) ∧ Differentiable ℝ W := by
  obtain ⟨G, g1, g2, g3, gm, g4⟩ := answer_exists he hN
  obtain ⟨T, hT⟩ : ∃ T : ℝ, T = 3.1415 / 2 := ⟨_, rfl⟩
  rw [← hT]
  have h0 : 0 < T := by
    rw [hT]
    norm_num
  have hpi : T < Real.pi / 2 := by
    rw [hT]
    linarith [Real.pi_gt_d4]
  obtain ⟨c, hc, ec⟩ : ∃ c, 0 < c ∧ (2 * N / Real.pi) ^ 2 / e = 1 / c := by
    have := Real.pi_pos
    refine ⟨e / (2 * N / Real.pi) ^ 2, by positivity, ?_⟩
    rw [one_div_div]
  rw [ec] at g3
  have z : Answered G T x₀ v₀ 0 := by
    intro h ch
    refine ⟨BoundedContinuousFunction.ofNormedAddCommGroup (fun t => G (h (held T t))) (g1.continuous.comp (ch.comp (held_continuous T))) N
      fun t => ?_, fun t => ?_⟩
    · rw [Real.norm_eq_abs]
      exact abs_le.2 ⟨(g2 _).1.le, (g2 _).2.le⟩
    · simp
  obtain ⟨M, hM⟩ : ∃ M, M = 1 / c * (1 + T * (T * (T * (T / c)) + T / c)) * (T * (T * (T * T) + T)) := ⟨_, rfl⟩
  have M0 : 0 < M := by
    rw [hM]
    positivity
  obtain ⟨n, hn⟩ := exists_nat_gt (2 * M)
  have n0 : (0 : ℝ) < n := lt_trans (by positivity) hn
  have all : ∀ k : ℕ, k ≤ n → Answered G T x₀ v₀ (k / n) := by
    intro k
    induction k with
    | zero =>
      intro _
      simpa using z
    | succ k ih =>
      intro hk
      have kn : (k : ℝ) ≤ n := by exact_mod_cast (Nat.le_of_succ_le hk)
      have q := (ih (Nat.le_of_succ_le hk)).step gm hc g3 h0 hpi (by positivity) ((div_le_one n0).2 kn) (δ := 1 / n) (by positivity) (by
        rw [← hM, div_mul_eq_mul_div, one_mul, div_le_iff₀ n0]
        linarith)
      have e1 : (k : ℝ) / n + 1 / n = ((k + 1 : ℕ) : ℝ) / n := by
        push_cast
        ring
      rwa [e1] at q
  have one := all n (le_refl _)
  rw [div_self n0.ne'] at one
  obtain ⟨u, hu⟩ := one (fun _ => 0) continuous_const
  have uc := u.continuous
  have c1 : Continuous (swift v₀ u) := prim_continuous _ _ uc
  have c2 : Continuous (spot x₀ v₀ u) := prim_continuous _ _ c1
  have c3 : Continuous (spotPrice T x₀ v₀ u) := prim_continuous _ _ c2
  have fix : ∀ t ∈ Set.Icc 0 T, u t = G (-swiftPrice T x₀ v₀ u t) := by
    intro t ht
    have k := hu t
    rwa [held_eq ht, one_mul, zero_sub] at k
  have dQ : ∀ t, HasDerivAt (swiftPrice T x₀ v₀ u) (-(spotPrice T x₀ v₀ u t + swift v₀ u t)) t := prim_deriv _ _ (c3.add c1).neg
  refine ⟨spot x₀ v₀ u, swift v₀ u, prim 0 c₀ fun t => (swift v₀ u t ^ 2 - spot x₀ v₀ u t ^ 2) / 2, fun t => G (-swiftPrice T x₀ v₀ u t),
    spotPrice T x₀ v₀ u, swiftPrice T x₀ v₀ u, ⟨fun t _ => prim_deriv _ _ c1 t, fun t ht => ?_, fun t _ => ?_,
    fun t _ => prim_deriv _ _ c2 t, fun t _ => dQ t, fun t _ => g4 _, prim_self _ _ _, prim_self _ _ _⟩,
    prim_self _ _ _, prim_self _ _ _, prim_self _ _ _, fun t => g2 _, fun t => ?_⟩
  · rw [← fix t ht]
    exact prim_deriv _ _ uc t
  · exact prim_deriv 0 c₀ (((c1.pow 2).sub (c2.pow 2)).div_const 2) t
  · exact DifferentiableAt.comp (g := G) (f := fun t => -swiftPrice T x₀ v₀ u t) t (g1 _) (dQ t).differentiableAt.neg

open Beluga.Sym Beluga.Sym.Expr Beluga.Num Beluga.Map Beluga.Opt Beluga.Rep

/-! ### Properties -/

/-- For every start, bound and activator the boundary value problem that beluga makes of the example has a solution whose control lies
between the bounds. -/
theorem C101_exists (U : Name → Nat → ℝ → ℝ) {e N : ℝ} (hN : 0 < N) (he : 0 < e) (x₀ v₀ c₀ : ℝ) :
    indirect brachS {} alyChan = .ok alyBvp ∧ ∃ ρ, Solves U alyBvp 0 1 ρ ∧ Regular brachS U alyQ alyBvp 0 1 ρ ∧ 0 < ρ 0 "_delta_t" ∧
      (∀ t ∈ Set.Icc (0 : ℝ) 1, DifferentiableAt ℝ (fun τ => ρ τ "u") t) ∧
      (∀ τ, alyChan.constants.map (ρ τ) = [x₀, v₀, c₀, e, N]) ∧ (∀ τ, ρ τ "t" = 3.1415 / 2 * τ) ∧ ∀ t, -N < ρ t "u" ∧ ρ t "u" < N := by
  obtain ⟨X, V, C, W, P, Q, h, h1, h2, h3, h4, h5⟩ := priced_exists hN he x₀ v₀ c₀
  obtain ⟨ρ, s1, s2, s3, s4, s5, s6⟩ := C101_complete U h he hN (fun t _ => h4 t) fun t _ => h5 t
  refine ⟨alyBvp_ok, ρ, s1, s2, s3, s4, fun τ => ?_, fun τ => (s6 τ).1, fun t => ?_⟩
  · rw [s5 τ, h1, h2, h3]
  · rw [(s6 t).2.2.2.2]
    exact h4 _

/-- With the constants at the end of the continuation of the example (AlyChan.py:25-29, 64) there is a solution. -/
example : ∃ ρ, Solves (fun _ _ _ => 0) alyBvp 0 1 ρ ∧ alyChan.constants.map (ρ 0) = [0, 1, 0, 1e-9, 1] ∧ ∀ t, -1 < ρ t "u" ∧ ρ t "u" < 1 := by
  obtain ⟨-, ρ, s1, -, -, -, s5, -, s7⟩ := C101_exists (fun _ _ _ => 0) (e := 1e-9) (N := 1) one_pos (by norm_num) 0 1 0
  exact ⟨ρ, s1, s5 0, s7⟩

end Beluga.E2E
