import Mathlib.Analysis.SpecialFunctions.Trigonometric.ArctanDeriv
import Mathlib.Analysis.SpecialFunctions.Sqrt
import Mathlib.Analysis.Calculus.Deriv.Inverse
import Mathlib.Analysis.Calculus.Deriv.MeanValue
import Mathlib.Topology.Order.IntermediateValue
import Verif.Shooting.Flow
import Verif.EndToEnd.Circuit

/-!
# The one-loop circuit example: voltages that balance their price exist (C100)

If some voltage reverses the current of the circuit and keeps away from the bounds, then there is one that satisfies the first-order
conditions of the problem with the penalty: the voltage is a function of the price of the current, and the price at the start is found by
shooting.
-/

namespace Beluga.E2E

/-! ### Specification -/

/-- The penalty of `utm` in closed form. -/
noncomputable def fine (e m M v : ℝ) : ℝ := e * (1 / Real.cos (Real.pi / 2 * (2 * v - M - m) / (M - m)) - 1)

/-- A current, the price of it and a voltage that satisfy the first-order conditions of the problem with the penalty. -/
structure Conducts (R L i₀ m M α β e : ℝ) (I P W : ℝ → ℝ) : Prop where
  start : I 0 = -i₀
  stop : I 1 = i₀
  law : ∀ t ∈ Set.Icc (0 : ℝ) 1, HasDerivAt I (-R / L * I t + W t / L) t
  price : ∀ t ∈ Set.Icc (0 : ℝ) 1, HasDerivAt P (R / L * P t - β * (I t - i₀)) t
  balance : ∀ t ∈ Set.Icc (0 : ℝ) 1, HasDerivAt (fun v => α * v ^ 2 / 2 + fine e m M v) (-P t / L) (W t)
  inside : ∀ t ∈ Set.Icc (0 : ℝ) 1, m < W t ∧ W t < M
  smooth : ∀ t ∈ Set.Icc (0 : ℝ) 1, DifferentiableAt ℝ W t

/-! ### The voltage as a function of the price -/

/-- The voltage at which the angle in the penalty has the tangent `s`. -/
noncomputable def volt (m M s : ℝ) : ℝ := (M + m) / 2 + (M - m) / Real.pi * Real.arctan s

/-- The slope of the cost there. -/
noncomputable def slopeAt (α e m M s : ℝ) : ℝ := α * volt m M s + e * (Real.pi / (M - m)) * (s * √(1 + s ^ 2))

theorem volt_mem {m M : ℝ} (hl : m < M) (s : ℝ) : m < volt m M s ∧ volt m M s < M := by
  have h1 := Real.neg_pi_div_two_lt_arctan s
  have h2 := Real.arctan_lt_pi_div_two s
  have hp := Real.pi_pos
  have hd : 0 < (M - m) / Real.pi := div_pos (sub_pos.2 hl) hp
  have e : (M - m) / Real.pi * (Real.pi / 2) = (M - m) / 2 := by field_simp
  have k1 := mul_lt_mul_of_pos_left h1 hd
  have k2 := mul_lt_mul_of_pos_left h2 hd
  unfold volt
  constructor <;> linarith

theorem volt_angle {m M : ℝ} (hl : m < M) (s : ℝ) : Real.pi / 2 * (2 * volt m M s - M - m) / (M - m) = Real.arctan s := by
  have hd : M - m ≠ 0 := (sub_pos.2 hl).ne'
  unfold volt
  field_simp
  ring

theorem volt_deriv (m M s : ℝ) : HasDerivAt (volt m M) ((M - m) / Real.pi * (1 / (1 + s ^ 2))) s :=
  ((Real.hasDerivAt_arctan s).const_mul _).const_add _

theorem slopeAt_deriv (α e m M s : ℝ) : HasDerivAt (slopeAt α e m M) (α * ((M - m) / Real.pi * (1 / (1 + s ^ 2))) +
    e * (Real.pi / (M - m)) * (√(1 + s ^ 2) + s * (s / √(1 + s ^ 2)))) s := by
  have k : HasDerivAt (fun s : ℝ => √(1 + s ^ 2)) (s / √(1 + s ^ 2)) s := by
    have := (((hasDerivAt_pow 2 s).const_add 1).sqrt (by positivity))
    refine this.congr_deriv ?_
    have : √(1 + s ^ 2) ≠ 0 := by positivity
    field_simp
    ring
  refine (((volt_deriv m M s).const_mul α).add (((hasDerivAt_id s).mul k).const_mul _)).congr_deriv ?_
  simp

theorem slopeAt_pos {α e m M : ℝ} (hα : 0 < α) (he : 0 < e) (hl : m < M) (s : ℝ) : 0 < α * ((M - m) / Real.pi * (1 / (1 + s ^ 2))) +
    e * (Real.pi / (M - m)) * (√(1 + s ^ 2) + s * (s / √(1 + s ^ 2))) := by
  have hd := sub_pos.2 hl
  have hp := Real.pi_pos
  have : s * (s / √(1 + s ^ 2)) = s ^ 2 / √(1 + s ^ 2) := by ring
  rw [this]
  positivity

theorem slopeAt_mono {α e m M : ℝ} (hα : 0 < α) (he : 0 < e) (hl : m < M) : StrictMono (slopeAt α e m M) :=
  strictMono_of_deriv_pos fun s => by
    rw [(slopeAt_deriv α e m M s).deriv]
    exact slopeAt_pos hα he hl s

theorem slopeAt_surj {α e m M : ℝ} (hα : 0 < α) (he : 0 < e) (hl : m < M) : Function.Surjective (slopeAt α e m M) := by
  have hc : Continuous (slopeAt α e m M) := continuous_iff_continuousAt.2 fun s => (slopeAt_deriv α e m M s).continuousAt
  have hp : 0 < e * (Real.pi / (M - m)) := mul_pos he (div_pos Real.pi_pos (sub_pos.2 hl))
  have root : ∀ s : ℝ, 1 ≤ √(1 + s ^ 2) := fun s => Real.one_le_sqrt.2 (by nlinarith [sq_nonneg s])
  refine hc.surjective ?_ ?_
  · refine Filter.tendsto_atTop_mono' _ ?_ (Filter.tendsto_atTop_add_const_left _ (α * m) (Filter.tendsto_id.const_mul_atTop hp))
    filter_upwards [Filter.eventually_ge_atTop 0] with s hs
    have k1 := mul_le_mul_of_nonneg_left (volt_mem hl s).1.le hα.le
    have k2 := mul_le_mul_of_nonneg_left (le_mul_of_one_le_right hs (root s)) hp.le
    simp only [slopeAt, id]
    linarith
  · refine Filter.tendsto_atBot_mono' _ ?_ (Filter.tendsto_atBot_add_const_left _ (α * M) (Filter.tendsto_id.const_mul_atBot hp))
    filter_upwards [Filter.eventually_le_atBot 0] with s hs
    have k1 := mul_le_mul_of_nonneg_left (volt_mem hl s).2.le hα.le
    have k3 : s * √(1 + s ^ 2) ≤ s := by nlinarith [root s]
    have k2 := mul_le_mul_of_nonneg_left k3 hp.le
    simp only [slopeAt, id]
    linarith

theorem fine_slope {e m M : ℝ} (hl : m < M) (s : ℝ) :
    HasDerivAt (fine e m M) (e * (Real.pi / (M - m)) * (s * √(1 + s ^ 2))) (volt m M s) := by
  have hd : M - m ≠ 0 := (sub_pos.2 hl).ne'
  have hcos : 0 < Real.cos (Real.arctan s) := Real.cos_arctan_pos s
  have h1 : HasDerivAt (fun v => Real.pi / 2 * (2 * v - M - m) / (M - m)) (Real.pi / 2 * 2 / (M - m)) (volt m M s) := by
    have := (((((hasDerivAt_id (volt m M s)).const_mul 2).sub_const M).sub_const m).const_mul (Real.pi / 2)).div_const (M - m)
    simpa using this
  have h2 := h1.cos
  rw [volt_angle hl] at h2
  have h3 := (((h2.inv (by rw [volt_angle hl]; exact hcos.ne')).sub_const 1).const_mul e)
  rw [volt_angle hl] at h3
  have e1 : fine e m M = fun v => e * ((Real.cos (Real.pi / 2 * (2 * v - M - m) / (M - m)))⁻¹ - 1) := by
    funext v
    simp [fine]
  rw [e1]
  refine h3.congr_deriv ?_
  rw [Real.cos_arctan, Real.sin_arctan]
  have : √(1 + s ^ 2) ≠ 0 := by positivity
  field_simp

/-- The voltage as a function of the slope of the cost. -/
theorem reply_exists {α e m M : ℝ} (hα : 0 < α) (he : 0 < e) (hl : m < M) : ∃ G : ℝ → ℝ, Monotone G ∧ Differentiable ℝ G ∧
    (∀ p, m < G p ∧ G p < M) ∧ (∀ p q, |G p - G q| ≤ |p - q| / α) ∧ (∀ w, m < w → w < M → ∃ p, G p = w) ∧
    ∀ p, HasDerivAt (fun v => α * v ^ 2 / 2 + fine e m M v) p (G p) := by
  obtain ⟨F, hF⟩ : ∃ F : ℝ ≃o ℝ, ∀ s, F s = slopeAt α e m M s :=
    ⟨(slopeAt_mono hα he hl).orderIsoOfSurjective _ (slopeAt_surj hα he hl), fun _ => rfl⟩
  have vm : Monotone (volt m M) := monotone_of_deriv_nonneg (fun s => (volt_deriv m M s).differentiableAt) fun s => by
    rw [(volt_deriv m M s).deriv]
    have := sub_pos.2 hl
    have := Real.pi_pos
    positivity
  have back : ∀ p, slopeAt α e m M (F.symm p) = p := fun p => by rw [← hF, F.apply_symm_apply]
  have mono : Monotone fun p => volt m M (F.symm p) := fun p q h => vm (F.symm.monotone h)
  have gap : ∀ p q, p ≤ q → volt m M (F.symm q) - volt m M (F.symm p) ≤ (q - p) / α := by
    intro p q h
    rw [le_div_iff₀ hα]
    have k1 := back p
    have k2 := back q
    have hs := F.symm.monotone h
    have um : Monotone fun s : ℝ => s * √(1 + s ^ 2) := by
      refine monotone_of_deriv_nonneg (fun s => ?_) fun s => ?_
      · have := slopeAt_deriv 0 1 0 Real.pi s
        have e1 : slopeAt 0 1 0 Real.pi = fun s => s * √(1 + s ^ 2) := by
          funext s
          simp [slopeAt, Real.pi_ne_zero]
        rw [e1] at this
        exact this.differentiableAt
      · have := slopeAt_deriv 0 1 0 Real.pi s
        have e1 : slopeAt 0 1 0 Real.pi = fun s => s * √(1 + s ^ 2) := by
          funext s
          simp [slopeAt, Real.pi_ne_zero]
        rw [e1] at this
        rw [this.deriv]
        have e2 : s * (s / √(1 + s ^ 2)) = s ^ 2 / √(1 + s ^ 2) := by ring
        rw [e2]
        have := Real.pi_pos
        rw [sub_zero, div_self this.ne']
        positivity
    have k3 := mul_le_mul_of_nonneg_left (um hs) (mul_pos he (div_pos Real.pi_pos (sub_pos.2 hl))).le
    simp only [slopeAt] at k1 k2
    nlinarith
  refine ⟨fun p => volt m M (F.symm p), mono, ?_, fun p => volt_mem hl _, ?_, ?_, ?_⟩
  · intro p
    have d1 : HasDerivAt F.symm _ p := HasDerivAt.of_local_left_inverse (f := slopeAt α e m M) F.symm.continuous.continuousAt
      (slopeAt_deriv α e m M (F.symm p)) (slopeAt_pos hα he hl _).ne' (Filter.Eventually.of_forall back)
    exact DifferentiableAt.comp (g := volt m M) (f := F.symm) p (volt_deriv m M _).differentiableAt d1.differentiableAt
  · intro p q
    rcases le_total p q with h | h
    · rw [abs_sub_comm, abs_sub_comm p q, abs_of_nonneg (sub_nonneg.2 (mono h)), abs_of_nonneg (sub_nonneg.2 h)]
      exact gap p q h
    · rw [abs_of_nonneg (sub_nonneg.2 (mono h)), abs_of_nonneg (sub_nonneg.2 h)]
      exact gap q p h
  · intro w h1 h2
    have hd := sub_pos.2 hl
    have hp := Real.pi_pos
    refine ⟨F (Real.tan (Real.pi / 2 * (2 * w - M - m) / (M - m))), ?_⟩
    dsimp only
    rw [F.symm_apply_apply, volt, Real.arctan_tan]
    · field_simp
      ring
    · rw [lt_div_iff₀ hd]
      nlinarith
    · rw [div_lt_iff₀ hd]
      nlinarith
  · intro p
    have k := fine_slope (e := e) hl (F.symm p)
    have k2 := (((hasDerivAt_pow 2 (volt m M (F.symm p))).const_mul α).div_const 2).add k
    have := back p
    simp only [slopeAt] at this
    refine k2.congr_deriv (Eq.trans ?_ this)
    norm_num
    ring

/-! ### The flow -/

/-- A curve with one-sided derivatives at the ends of an interval goes on as a straight line. -/
theorem extend_ends {y y' : ℝ → ℝ} (h : ∀ t ∈ Set.Icc (0 : ℝ) 1, HasDerivWithinAt y (y' t) (Set.Icc 0 1) t) :
    ∃ z : ℝ → ℝ, (∀ t ∈ Set.Icc (0 : ℝ) 1, z t = y t) ∧ ∀ t ∈ Set.Icc (0 : ℝ) 1, HasDerivAt z (y' t) t := by
  obtain ⟨z, hz⟩ : ∃ z : ℝ → ℝ, z = fun t => if t < 0 then y 0 + y' 0 * t else if t ≤ 1 then y t else y 1 + y' 1 * (t - 1) := ⟨_, rfl⟩
  have eq : ∀ t ∈ Set.Icc (0 : ℝ) 1, z t = y t := by
    intro t ht
    simp [hz, not_lt.2 ht.1, ht.2]
  have mid : ∀ t ∈ Set.Icc (0 : ℝ) 1, HasDerivWithinAt z (y' t) (Set.Icc 0 1) t := fun t ht => (h t ht).congr eq (eq t ht)
  have left : HasDerivWithinAt z (y' 0) (Set.Iic 0) 0 := by
    have k : HasDerivAt (fun t => y 0 + y' 0 * t) (y' 0) 0 := by
      simpa using ((hasDerivAt_id (0 : ℝ)).const_mul (y' 0)).const_add (y 0)
    refine k.hasDerivWithinAt.congr ?_ ?_
    · intro t ht
      rcases (Set.mem_Iic.1 ht).eq_or_lt with e | e
      · subst e
        simp [hz]
      · simp [hz, e]
    · simp [hz]
  have right : HasDerivWithinAt z (y' 1) (Set.Ici 1) 1 := by
    have k : HasDerivAt (fun t => y 1 + y' 1 * (t - 1)) (y' 1) 1 := by
      simpa using (((hasDerivAt_id (1 : ℝ)).sub_const 1).const_mul (y' 1)).const_add (y 1)
    refine k.hasDerivWithinAt.congr ?_ ?_
    · intro t ht
      rcases (Set.mem_Ici.1 ht).eq_or_lt with e | e
      · subst e
        simp [hz, zero_lt_one.le]
      · have : ¬ t < 0 := by linarith
        simp [hz, this, not_le.2 e]
    · simp [hz]
  refine ⟨z, eq, fun t ht => ?_⟩
  rcases ht.1.eq_or_lt with e | e
  · subst e
    refine (left.union (mid 0 ht)).hasDerivAt ?_
    filter_upwards [eventually_lt_nhds (zero_lt_one (α := ℝ))] with s hs
    rcases le_total s 0 with k | k
    · exact Or.inl k
    · exact Or.inr ⟨k, hs.le⟩
  · rcases ht.2.eq_or_lt with k | k
    · subst k
      refine ((mid 1 ht).union right).hasDerivAt ?_
      filter_upwards [eventually_gt_nhds (zero_lt_one (α := ℝ))] with s hs
      rcases le_total s 1 with k | k
      · exact Or.inl ⟨hs.le, k⟩
      · exact Or.inr k
    · exact (mid t ht).hasDerivAt (Icc_mem_nhds e k)

/-- More voltage, more current. -/
theorem current_mono {R L : ℝ} (hL : 0 < L) {I J W Z : ℝ → ℝ} (hI : ContinuousOn I (Set.Icc 0 1)) (hJ : ContinuousOn J (Set.Icc 0 1))
    (dI : ∀ t ∈ Set.Ioo (0 : ℝ) 1, HasDerivWithinAt I (-R / L * I t + W t / L) (Set.Ioi t) t)
    (dJ : ∀ t ∈ Set.Ioo (0 : ℝ) 1, HasDerivWithinAt J (-R / L * J t + Z t / L) (Set.Ioi t) t) (h0 : I 0 = J 0)
    (hW : ∀ t ∈ Set.Ioo (0 : ℝ) 1, W t ≤ Z t) : I 1 ≤ J 1 := by
  have de : ∀ t : ℝ, HasDerivAt (fun t => Real.exp (R / L * t)) (Real.exp (R / L * t) * (R / L)) t := by
    intro t
    simpa using ((hasDerivAt_id t).const_mul (R / L)).exp
  have k := intervalIntegral.sub_le_integral_of_hasDeriv_right_of_le (g := fun t => (I t - J t) * Real.exp (R / L * t)) (φ := fun _ => 0)
    zero_le_one ((hI.sub hJ).mul (Continuous.continuousOn (by fun_prop)))
    (fun t ht => (((dI t ht).sub (dJ t ht)).mul (de t).hasDerivWithinAt)) (by simp) (by
      intro t ht
      have e1 := mul_nonneg (div_nonneg (sub_nonneg.2 (hW t ht)) hL.le) (Real.exp_pos (R / L * t)).le
      have e2 : (Z t - W t) / L = Z t / L - W t / L := by ring
      rw [e2] at e1
      simp only [Pi.sub_apply]
      have e3 : -R / L = -(R / L) := by ring
      rw [e3]
      nlinarith)
  simp only [h0, sub_self, zero_mul, sub_zero, intervalIntegral.integral_zero] at k
  nlinarith [Real.exp_pos (R / L * 1)]

/-- If some voltage with room to the bounds reverses the current, there is one that satisfies the first-order conditions. -/
theorem conducts_exists {R L i₀ m M α β e : ℝ} (hL : 0 < L) (hl : m < M) (hα : 0 < α) (hβ : 0 ≤ β) (he : 0 < e) {J Z : ℝ → ℝ} {μ : ℝ}
    (hμ : 0 < μ) (hJ : Charges R L i₀ m M J Z) (room : ∀ t ∈ Set.Icc (0 : ℝ) 1, m + μ * (M - m) ≤ Z t ∧ Z t ≤ M - μ * (M - m)) :
    ∃ I P W, Conducts R L i₀ m M α β e I P W := by
  obtain ⟨G, g1, g2, g3, g4, g5, g6⟩ := reply_exists hα he hl
  have wide : 0 < μ * (M - m) := mul_pos hμ (sub_pos.2 hl)
  obtain ⟨v, hv⟩ : ∃ v : ℝ × ℝ → ℝ × ℝ, v = fun z => (-R / L * z.1 + G (-z.2 / L) / L, R / L * z.2 - β * (z.1 - i₀)) := ⟨_, rfl⟩
  obtain ⟨r, hr⟩ : ∃ r, r = R / L := ⟨_, rfl⟩
  have hr' : -R / L = -r := by rw [hr]; ring
  have K0 : 0 ≤ |r| + 1 / (α * L ^ 2) + β := by positivity
  have lip : LipschitzWith ⟨|r| + 1 / (α * L ^ 2) + β, K0⟩ v := by
    refine LipschitzWith.of_dist_le_mul fun x y => ?_
    have x1 : |x.1 - y.1| ≤ dist x y := by
      rw [Prod.dist_eq, Real.dist_eq]
      exact le_max_left _ _
    have x2 : |x.2 - y.2| ≤ dist x y := by
      rw [Prod.dist_eq, Real.dist_eq x.2]
      exact le_max_right _ _
    change dist (v x) (v y) ≤ (|r| + 1 / (α * L ^ 2) + β) * dist x y
    rw [Prod.dist_eq, hv]
    simp only [Real.dist_eq, hr', ← hr]
    have gl : |G (-x.2 / L) / L - G (-y.2 / L) / L| ≤ 1 / (α * L ^ 2) * |x.2 - y.2| := by
      rw [← sub_div, abs_div, abs_of_pos hL, div_le_iff₀ hL]
      refine (g4 _ _).trans (le_of_eq ?_)
      have : -x.2 / L - -y.2 / L = -(x.2 - y.2) / L := by ring
      rw [this, abs_div, abs_neg, abs_of_pos hL]
      field_simp
    have c0 : 0 ≤ 1 / (α * L ^ 2) := by positivity
    refine max_le ?_ ?_
    · have e1 : -r * x.1 + G (-x.2 / L) / L - (-r * y.1 + G (-y.2 / L) / L) = -r * (x.1 - y.1) + (G (-x.2 / L) / L - G (-y.2 / L) / L) := by ring
      rw [e1]
      refine (abs_add_le _ _).trans ?_
      rw [abs_mul, abs_neg]
      have k1 := mul_le_mul_of_nonneg_left x1 (abs_nonneg r)
      have k2 := mul_le_mul_of_nonneg_left x2 c0
      have k3 := mul_nonneg hβ (dist_nonneg (x := x) (y := y))
      linarith
    · have e1 : r * x.2 - β * (x.1 - i₀) - (r * y.2 - β * (y.1 - i₀)) = r * (x.2 - y.2) + -β * (x.1 - y.1) := by ring
      rw [e1]
      refine (abs_add_le _ _).trans ?_
      rw [abs_mul, abs_mul, abs_neg, abs_of_nonneg hβ]
      have k1 := mul_le_mul_of_nonneg_left x2 (abs_nonneg r)
      have k2 := mul_le_mul_of_nonneg_left x1 hβ
      have k3 := mul_nonneg c0 (dist_nonneg (x := x) (y := y))
      linarith
  have sol : ∀ p : ℝ, ∃ y : ℝ → ℝ × ℝ, y 0 = (-i₀, p) ∧ ∀ t ∈ Set.Icc (0 : ℝ) 1, HasDerivWithinAt y (v (y t)) (Set.Icc 0 1) t := fun p =>
    Beluga.Flow.exists_solution (v := fun _ => v) zero_le_one (fun _ _ => lip) (fun _ => continuousOn_const) _
  choose y y0 yd using sol
  have yc : ∀ p, ContinuousOn (y p) (Set.Icc 0 1) := fun p t ht => (yd p t ht).continuousWithinAt
  have ir : ∀ p, ∀ t ∈ Set.Ico (0 : ℝ) 1, HasDerivWithinAt (y p) (v (y p t)) (Set.Ici t) t := fun p t ht =>
    (yd p t ⟨ht.1, ht.2.le⟩).mono_of_mem_nhdsWithin (Icc_mem_nhdsGE_of_mem ht)
  have cont : Continuous fun p => (y p 1).1 := by
    have k : LipschitzWith ⟨Real.exp (|r| + 1 / (α * L ^ 2) + β), (Real.exp_pos _).le⟩ fun p => (y p 1).1 := by
      refine LipschitzWith.of_dist_le_mul fun p q => ?_
      have k := dist_le_of_trajectories_ODE (v := fun _ => v) (fun _ => lip) (yc p) (ir p) (yc q) (ir q) (le_refl _) 1 ⟨zero_le_one, le_refl _⟩
      rw [y0, y0] at k
      have e1 : dist ((-i₀, p) : ℝ × ℝ) (-i₀, q) = dist p q := by simp [Prod.dist_eq]
      rw [e1] at k
      have e2 : dist (y p 1).1 (y q 1).1 ≤ dist (y p 1) (y q 1) := by
        rw [Prod.dist_eq]
        exact le_max_left _ _
      change _ ≤ Real.exp (|r| + 1 / (α * L ^ 2) + β) * dist p q
      refine e2.trans (k.trans (le_of_eq ?_))
      rw [mul_comm, sub_zero, mul_one]
      rfl
    exact k.continuous
  have dI : ∀ p, ∀ t ∈ Set.Icc (0 : ℝ) 1, HasDerivWithinAt (fun t => (y p t).1) (-R / L * (y p t).1 + G (-(y p t).2 / L) / L) (Set.Icc 0 1) t := by
    intro p t ht
    have := (yd p t ht).fst
    rwa [hv] at this
  have dP : ∀ p, ∀ t ∈ Set.Icc (0 : ℝ) 1, HasDerivWithinAt (fun t => (y p t).2) (R / L * (y p t).2 - β * ((y p t).1 - i₀)) (Set.Icc 0 1) t := by
    intro p t ht
    have := (yd p t ht).snd
    rwa [hv] at this
  have cI : ∀ p, ContinuousOn (fun t => (y p t).1) (Set.Icc 0 1) := fun p t ht => (dI p t ht).continuousWithinAt
  have rI : ∀ p, ∀ t ∈ Set.Ioo (0 : ℝ) 1, HasDerivWithinAt (fun t => (y p t).1) (-R / L * (y p t).1 + G (-(y p t).2 / L) / L) (Set.Ioi t) t :=
    fun p t ht => ((dI p t ⟨ht.1.le, ht.2.le⟩).hasDerivAt (Icc_mem_nhds ht.1 ht.2)).hasDerivWithinAt
  obtain ⟨C, hC⟩ : ∃ C, ∀ p, ∀ t ∈ Set.Icc (0 : ℝ) 1, |(y p t).1| ≤ C := by
    obtain ⟨C, hC⟩ := isCompact_Icc.exists_bound_of_continuousOn (f := fun t : ℝ => gronwallBound |i₀| |r| ((|m| + |M|) / L) (t - 0))
      (s := Set.Icc (0 : ℝ) 1) (fun t _ => (hasDerivAt_gronwallBound_shift _ _ _ t 0).continuousAt.continuousWithinAt)
    refine ⟨C, fun p t ht => ?_⟩
    have k := norm_le_gronwallBound_of_norm_deriv_right_le (δ := |i₀|) (K := |r|) (ε := (|m| + |M|) / L) (cI p)
      (fun t ht => (dI p t ⟨ht.1, ht.2.le⟩).mono_of_mem_nhdsWithin (Icc_mem_nhdsGE_of_mem ht)) (by simp [y0]) (by
        intro t ht
        rw [hr']
        refine (norm_add_le _ _).trans ?_
        rw [norm_mul, norm_neg, Real.norm_eq_abs r]
        refine add_le_add (le_refl _) ?_
        rw [norm_div, Real.norm_eq_abs, Real.norm_eq_abs, abs_of_pos hL]
        refine div_le_div_of_nonneg_right ?_ hL.le
        obtain ⟨k1, k2⟩ := g3 (-(y p t).2 / L)
        rw [abs_le]
        constructor <;> linarith [neg_abs_le m, le_abs_self M, abs_nonneg m, abs_nonneg M]) t ht
    exact k.trans ((le_abs_self _).trans (hC t ht))
  have C0 : 0 ≤ C := (abs_nonneg _).trans (hC 0 0 ⟨le_refl _, zero_le_one⟩)
  obtain ⟨D, hD⟩ : ∃ D, D = β * (C + |i₀|) * Real.exp |r| := ⟨_, rfl⟩
  have D0 : 0 ≤ D := by rw [hD]; positivity
  have ex : ∀ t ∈ Set.Icc (0 : ℝ) 1, Real.exp (-(r * t)) ≤ Real.exp |r| ∧ Real.exp (-|r|) ≤ Real.exp (r * t) := by
    intro t ht
    have k : |r * t| ≤ |r| := by
      rw [abs_mul, abs_of_nonneg ht.1]
      exact mul_le_of_le_one_right (abs_nonneg _) ht.2
    obtain ⟨k1, k2⟩ := abs_le.1 k
    exact ⟨Real.exp_le_exp.2 (by linarith), Real.exp_le_exp.2 k1⟩
  have near : ∀ p, ∀ t ∈ Set.Icc (0 : ℝ) 1, |(y p t).2 * Real.exp (-(r * t)) - p| ≤ D := by
    intro p t ht
    have de : ∀ t : ℝ, HasDerivAt (fun t => Real.exp (-(r * t))) (Real.exp (-(r * t)) * -r) t := by
      intro t
      have := (((hasDerivAt_id t).const_mul r).neg).exp
      simpa using this
    have k := (convex_Icc (0 : ℝ) 1).norm_image_sub_le_of_norm_hasDerivWithin_le (C := D)
      (f := fun t => (y p t).2 * Real.exp (-(r * t))) (fun t ht => (dP p t ht).mul (de t).hasDerivWithinAt) (by
        intro t ht
        have e1 : (R / L * (y p t).2 - β * ((y p t).1 - i₀)) * Real.exp (-(r * t)) + (y p t).2 * (Real.exp (-(r * t)) * -r) =
            -(β * ((y p t).1 - i₀) * Real.exp (-(r * t))) := by
          rw [← hr]
          ring
        rw [e1, norm_neg, norm_mul, norm_mul, Real.norm_eq_abs, Real.norm_eq_abs, Real.norm_eq_abs, abs_of_nonneg hβ,
          abs_of_pos (Real.exp_pos _), hD]
        have k1 : |(y p t).1 - i₀| ≤ C + |i₀| := (abs_sub _ _).trans (by linarith [hC p t ht])
        exact mul_le_mul (mul_le_mul_of_nonneg_left k1 hβ) (ex t ht).1 (Real.exp_pos _).le (by positivity))
      (show (0 : ℝ) ∈ Set.Icc (0 : ℝ) 1 from ⟨le_refl _, zero_le_one⟩) ht
    simp only [y0, mul_zero, neg_zero, Real.exp_zero, mul_one, sub_zero, Real.norm_eq_abs] at k
    refine k.trans ?_
    rw [abs_of_nonneg ht.1]
    exact mul_le_of_le_one_right D0 ht.2
  have turn : ∀ p t, (y p t).2 = (y p t).2 * Real.exp (-(r * t)) * Real.exp (r * t) := by
    intro p t
    rw [mul_assoc, ← Real.exp_add, neg_add_cancel, Real.exp_zero, mul_one]
  have high : ∃ p, i₀ ≤ (y p 1).1 := by
    obtain ⟨s, hs⟩ := g5 (M - μ * (M - m)) (by
      obtain ⟨k1, k2⟩ := room 0 ⟨le_refl _, zero_le_one⟩
      linarith) (by linarith)
    refine ⟨-(D + L * |s| * Real.exp |r|), ?_⟩
    rw [← hJ.stop]
    refine current_mono hL hJ.continuous (cI _) hJ.law (rI _) (by rw [hJ.start, y0]) fun t ht => ?_
    have ht : t ∈ Set.Icc (0 : ℝ) 1 := ⟨ht.1.le, ht.2.le⟩
    refine (room t ht).2.trans ?_
    rw [← hs]
    refine g1 ?_
    have n := (abs_le.1 (near (-(D + L * |s| * Real.exp |r|)) t ht)).2
    generalize hp : -(D + L * |s| * Real.exp |r|) = p at n
    rw [le_div_iff₀ hL, turn p t]
    have e1 := (ex t ht).2
    have e2 : Real.exp (-|r|) * Real.exp |r| = 1 := by rw [← Real.exp_add, neg_add_cancel, Real.exp_zero]
    have k1 : (y p t).2 * Real.exp (-(r * t)) ≤ -(L * |s| * Real.exp |r|) := by linarith
    have k2 := mul_le_mul_of_nonneg_right k1 (Real.exp_pos (r * t)).le
    have k3 := mul_le_mul_of_nonneg_left e1 (show 0 ≤ L * |s| * Real.exp |r| by positivity)
    have k4 : L * |s| * Real.exp |r| * Real.exp (-|r|) = L * |s| := by linear_combination L * |s| * e2
    have k5 := mul_le_mul_of_nonneg_left (le_abs_self s) hL.le
    linarith
  have low : ∃ p, (y p 1).1 ≤ i₀ := by
    obtain ⟨s, hs⟩ := g5 (m + μ * (M - m)) (by linarith) (by
      obtain ⟨k1, k2⟩ := room 0 ⟨le_refl _, zero_le_one⟩
      linarith)
    refine ⟨D + L * |s| * Real.exp |r|, ?_⟩
    rw [← hJ.stop]
    refine current_mono hL (cI _) hJ.continuous (rI _) hJ.law (by rw [hJ.start, y0]) fun t ht => ?_
    have ht : t ∈ Set.Icc (0 : ℝ) 1 := ⟨ht.1.le, ht.2.le⟩
    refine le_trans ?_ (room t ht).1
    rw [← hs]
    refine g1 ?_
    have n := (abs_le.1 (near (D + L * |s| * Real.exp |r|) t ht)).1
    generalize hp : D + L * |s| * Real.exp |r| = p at n
    rw [div_le_iff₀ hL, turn p t]
    have e1 := (ex t ht).2
    have e2 : Real.exp (-|r|) * Real.exp |r| = 1 := by rw [← Real.exp_add, neg_add_cancel, Real.exp_zero]
    have k1 : L * |s| * Real.exp |r| ≤ (y p t).2 * Real.exp (-(r * t)) := by linarith
    have k2 := mul_le_mul_of_nonneg_right k1 (Real.exp_pos (r * t)).le
    have k3 := mul_le_mul_of_nonneg_left e1 (show 0 ≤ L * |s| * Real.exp |r| by positivity)
    have k4 : L * |s| * Real.exp |r| * Real.exp (-|r|) = L * |s| := by linear_combination L * |s| * e2
    have k5 := mul_le_mul_of_nonneg_left (neg_abs_le s) hL.le
    linarith
  obtain ⟨p1, h1⟩ := low
  obtain ⟨p2, h2⟩ := high
  obtain ⟨p, hp⟩ := mem_range_of_exists_le_of_exists_ge cont ⟨p1, h1⟩ ⟨p2, h2⟩
  obtain ⟨I, i1, i2⟩ := extend_ends (dI p)
  obtain ⟨P, q1, q2⟩ := extend_ends (dP p)
  have z0 : (0 : ℝ) ∈ Set.Icc (0 : ℝ) 1 := ⟨le_refl _, zero_le_one⟩
  have z1 : (1 : ℝ) ∈ Set.Icc (0 : ℝ) 1 := ⟨zero_le_one, le_refl _⟩
  refine ⟨I, P, fun t => G (-P t / L), ?_, ?_, ?_, ?_, fun t _ => g6 _, fun t _ => g3 _, ?_⟩
  · rw [i1 0 z0, y0]
  · rw [i1 1 z1]
    exact hp
  · intro t ht
    have := i2 t ht
    rwa [← i1 t ht, ← q1 t ht] at this
  · intro t ht
    have := q2 t ht
    rwa [← i1 t ht, ← q1 t ht] at this
  · intro t ht
    exact DifferentiableAt.comp (g := G) (f := fun t => -P t / L) t (g2 _) (((q2 t ht).neg.div_const L).differentiableAt)

end Beluga.E2E
