import Mathlib.Analysis.ODE.Gronwall
import Mathlib.Analysis.ODE.ExistUnique
import Mathlib.Analysis.Calculus.FDeriv.Prod
import Mathlib.Analysis.Calculus.FDeriv.Comp
import Mathlib.Analysis.SpecialFunctions.ExpDeriv
import Mathlib.Topology.MetricSpace.Pseudo.Lemmas

/-!
# The end state of an exact integration is differentiable

The state at the end of an exact integration as a function of the state at the start and of the parameters is strictly differentiable if
the right hand side is along the solution, and its derivative is given by the linearised equations.
-/

namespace Beluga.Flow

open Set Filter
open scoped Topology NNReal

variable {Z X Q : Type*} [NormedAddCommGroup Z] [NormedSpace ℝ Z] [NormedAddCommGroup X] [NormedSpace ℝ X] [NormedAddCommGroup Q]
  [NormedSpace ℝ Q]

/-! ### Strict derivatives along a compact curve -/

theorem strict_ball {f : Z → X} {A : Z →L[ℝ] X} {k : Z} (h : HasStrictFDerivAt f A k) {ε : ℝ} (hε : 0 < ε) :
    ∃ r > 0, ∀ z w, dist z k < r → dist w k < r → ‖f z - f w - A (z - w)‖ ≤ ε * ‖z - w‖ := by
  have := h.isLittleO.def hε
  rw [Metric.eventually_nhds_iff] at this
  obtain ⟨r, hr, hb⟩ := this
  exact ⟨r, hr, fun z w hz hw => hb (y := (z, w)) (by rw [Prod.dist_eq]; exact max_lt hz hw)⟩

theorem strict_compare {f : Z → X} {A B : Z →L[ℝ] X} {k : Z} (h : HasStrictFDerivAt f A k) {s : Set Z} (hs : s ∈ 𝓝 k) {ε : ℝ}
    (hε : 0 < ε) (hB : ∀ z ∈ s, ∀ w ∈ s, ‖f z - f w - B (z - w)‖ ≤ ε * ‖z - w‖) : ‖B - A‖ ≤ 2 * ε := by
  refine ContinuousLinearMap.opNorm_le_bound _ (by linarith) fun v => ?_
  obtain ⟨r, hr, hA⟩ := strict_ball h hε
  have hcont : Tendsto (fun c : ℝ => k + c • v) (𝓝[>] 0) (𝓝 k) := by
    have : Tendsto (fun c : ℝ => k + c • v) (𝓝 0) (𝓝 (k + (0 : ℝ) • v)) := by
      exact (continuous_const.add (continuous_id.smul continuous_const)).tendsto 0
    rw [zero_smul, add_zero] at this
    exact this.mono_left nhdsWithin_le_nhds
  have hev : ∀ᶠ c : ℝ in 𝓝[>] 0, k + c • v ∈ s ∧ dist (k + c • v) k < r ∧ 0 < c :=
    (hcont.eventually hs).and ((hcont.eventually (Metric.ball_mem_nhds k hr)).and self_mem_nhdsWithin)
  obtain ⟨c, h1, h2, hc⟩ := hev.exists
  have hk : k ∈ s := mem_of_mem_nhds hs
  have e1 := hB _ h1 _ hk
  have e2 := hA _ _ h2 (by rw [dist_self]; exact hr)
  rw [add_sub_cancel_left, map_smul] at e1 e2
  have e3 : c • (B - A) v = (f (k + c • v) - f k - c • A v) - (f (k + c • v) - f k - c • B v) := by
    rw [ContinuousLinearMap.sub_apply, smul_sub]
    abel
  have e4 : ‖c • (B - A) v‖ ≤ ε * ‖c • v‖ + ε * ‖c • v‖ := by
    rw [e3]
    exact (norm_sub_le _ _).trans (add_le_add e2 e1)
  rw [norm_smul, norm_smul, Real.norm_of_nonneg hc.le] at e4
  have : c * ‖(B - A) v‖ ≤ c * (2 * ε * ‖v‖) := by linarith
  exact le_of_mul_le_mul_left this hc

section tube
variable {f : Z → X} {f' : ℝ → Z →L[ℝ] X} {a b : ℝ} {γ : ℝ → Z}

/-- Strict derivatives along a curve are uniform. -/
theorem strict_uniform (hγ : ContinuousOn γ (Icc a b)) (hf : ∀ t ∈ Icc a b, HasStrictFDerivAt f (f' t) (γ t)) {ε : ℝ} (hε : 0 < ε) :
    ∃ δ > 0, ∀ t ∈ Icc a b, ∀ z w, dist z (γ t) < δ → dist w (γ t) < δ → ‖f z - f w - f' t (z - w)‖ ≤ ε * ‖z - w‖ := by
  have hε3 : 0 < ε / 3 := by linarith
  choose! r hr hb using fun t ht => strict_ball (hf t ht) hε3
  obtain ⟨δ, hδ, hL⟩ := lebesgue_number_lemma_of_metric (s := γ '' Icc a b) (c := fun t : Icc a b => Metric.ball (γ t) (r t))
    (isCompact_Icc.image_of_continuousOn hγ) (fun _ => Metric.isOpen_ball) (by
      rintro _ ⟨t, ht, rfl⟩
      exact mem_iUnion.2 ⟨⟨t, ht⟩, Metric.mem_ball_self (hr t ht)⟩)
  refine ⟨δ, hδ, fun t ht z w hz hw => ?_⟩
  obtain ⟨⟨s, hs⟩, hsub⟩ := hL (γ t) ⟨t, ht, rfl⟩
  have hB : ∀ z ∈ Metric.ball (γ t) δ, ∀ w ∈ Metric.ball (γ t) δ, ‖f z - f w - f' s (z - w)‖ ≤ ε / 3 * ‖z - w‖ := fun z hz w hw =>
    hb s hs z w (hsub hz) (hsub hw)
  have hc := strict_compare (hf t ht) (Metric.ball_mem_nhds _ hδ) hε3 hB
  have e : f z - f w - f' t (z - w) = (f z - f w - f' s (z - w)) + (f' s - f' t) (z - w) := by
    rw [ContinuousLinearMap.sub_apply]; abel
  rw [e]
  have h1 := hB z hz w hw
  have h2 := ((f' s - f' t).le_opNorm (z - w)).trans (mul_le_mul_of_nonneg_right hc (norm_nonneg _))
  have := norm_add_le (f z - f w - f' s (z - w)) ((f' s - f' t) (z - w))
  linarith

/-- … and bounded. -/
theorem strict_bounded (hγ : ContinuousOn γ (Icc a b)) (hf : ∀ t ∈ Icc a b, HasStrictFDerivAt f (f' t) (γ t)) :
    ∃ M ≥ 0, ∀ t ∈ Icc a b, ‖f' t‖ ≤ M := by
  obtain ⟨δ, hδ, hu⟩ := strict_uniform hγ hf one_pos
  have hc : IsCompact (γ '' Icc a b) := isCompact_Icc.image_of_continuousOn hγ
  obtain ⟨M, hM0, hM⟩ : ∃ M ≥ 0, ∀ t ∈ Icc a b, γ t ∈ γ '' Icc a b → ‖f' t‖ ≤ M := by
    refine hc.induction_on (p := fun s => ∃ M ≥ (0 : ℝ), ∀ t ∈ Icc a b, γ t ∈ s → ‖f' t‖ ≤ M) ⟨0, le_rfl, by simp⟩ ?_ ?_ ?_
    · rintro s t hst ⟨M, h0, h⟩
      exact ⟨M, h0, fun t ht h' => h t ht (hst h')⟩
    · rintro s t ⟨M, h0, h⟩ ⟨N, _, h'⟩
      refine ⟨max M N, le_max_of_le_left h0, fun t ht hm => ?_⟩
      rcases hm with hm | hm
      · exact (h t ht hm).trans (le_max_left _ _)
      · exact (h' t ht hm).trans (le_max_right _ _)
    · rintro _ ⟨s, hs, rfl⟩
      refine ⟨Metric.ball (γ s) (δ / 2), mem_nhdsWithin_of_mem_nhds (Metric.ball_mem_nhds _ (by linarith)), ‖f' s‖ + 2 * 1,
        add_nonneg (norm_nonneg _) (by norm_num), fun t ht htm => ?_⟩
      have hB : ∀ z ∈ Metric.ball (γ t) (δ / 2), ∀ w ∈ Metric.ball (γ t) (δ / 2), ‖f z - f w - f' s (z - w)‖ ≤ 1 * ‖z - w‖ := by
        intro z hz w hw
        rw [Metric.mem_ball] at hz hw htm
        exact hu s hs z w (by linarith [dist_triangle z (γ t) (γ s)]) (by linarith [dist_triangle w (γ t) (γ s)])
      have h1 := strict_compare (hf t ht) (Metric.ball_mem_nhds _ (by linarith)) one_pos hB
      have : f' t = f' s - (f' s - f' t) := by abel
      rw [this]
      exact (norm_sub_le _ _).trans (by linarith)
  exact ⟨M, hM0, fun t ht => hM t ht ⟨t, ht, rfl⟩⟩

end tube

/-! ### Solutions that start close to each other -/

/-- The curve `x` follows the differential equations with the right hand side `f` and the parameters `q` from `a` to `b`. -/
def Follows (f : X × Q → X) (q : Q) (a b : ℝ) (x : ℝ → X) : Prop :=
  ∀ t ∈ Icc a b, HasDerivWithinAt x (f (x t, q)) (Icc a b) t

theorem Follows.right {f : X × Q → X} {q : Q} {a b : ℝ} {x : ℝ → X} (h : Follows f q a b x) :
    ∀ t ∈ Ico a b, HasDerivWithinAt x (f (x t, q)) (Ici t) t := fun t ht =>
  (h t (Ico_subset_Icc_self ht)).mono_of_mem_nhdsWithin (Icc_mem_nhdsGE_of_mem ht)

theorem Follows.cont {f : X × Q → X} {q : Q} {a b : ℝ} {x : ℝ → X} (h : Follows f q a b x) : ContinuousOn x (Icc a b) := fun t ht =>
  (h t ht).continuousWithinAt

/-- Two curves stay together.  Their rates need to be compared only where they are close. -/
theorem stay_close {a b : ℝ} {x y x' y' : ℝ → X} (hx : ∀ t ∈ Icc a b, HasDerivWithinAt x (x' t) (Icc a b) t)
    (hy : ∀ t ∈ Icc a b, HasDerivWithinAt y (y' t) (Icc a b) t) {L κ η ρ : ℝ}
    (hL : 0 ≤ L) (hη : 0 < η) (ha : ‖x a - y a‖ ≤ η) (hκ : κ ≤ η) (hρ : η * Real.exp ((L + 1) * (b - a)) < ρ)
    (hLip : ∀ t ∈ Icc a b, ‖x t - y t‖ < ρ → ‖x' t - y' t‖ ≤ L * max ‖x t - y t‖ κ) :
    ∀ t ∈ Icc a b, ‖x t - y t‖ ≤ η * Real.exp ((L + 1) * (t - a)) := by
  have right : ∀ {x x' : ℝ → X}, (∀ t ∈ Icc a b, HasDerivWithinAt x (x' t) (Icc a b) t) → ∀ t ∈ Ico a b,
      HasDerivWithinAt x (x' t) (Ici t) t := fun h t ht => (h t (Ico_subset_Icc_self ht)).mono_of_mem_nhdsWithin (Icc_mem_nhdsGE_of_mem ht)
  refine image_norm_le_of_norm_deriv_right_lt_deriv_boundary (f := fun t => x t - y t) (f' := fun t => x' t - y' t)
    (B := fun t => η * Real.exp ((L + 1) * (t - a))) (B' := fun t => η * (Real.exp ((L + 1) * (t - a)) * (L + 1)))
    (fun t ht => ((hx t ht).sub (hy t ht)).continuousWithinAt) (fun t ht => (right hx t ht).sub (right hy t ht)) (by simpa using ha)
    (fun t => ?_) (fun t ht he => ?_)
  · have h1 : HasDerivAt (fun t : ℝ => (L + 1) * (t - a)) (L + 1) t := by
      simpa using ((hasDerivAt_id t).sub_const a).const_mul (L + 1)
    exact h1.exp.const_mul η
  · have hE : 1 ≤ Real.exp ((L + 1) * (t - a)) := Real.one_le_exp (mul_nonneg (by linarith) (by linarith [ht.1]))
    have hEb : Real.exp ((L + 1) * (t - a)) ≤ Real.exp ((L + 1) * (b - a)) :=
      Real.exp_le_exp.2 (mul_le_mul_of_nonneg_left (by linarith [ht.2]) (by linarith))
    have hB : η ≤ η * Real.exp ((L + 1) * (t - a)) := le_mul_of_one_le_right hη.le hE
    have hlt : ‖x t - y t‖ < ρ := by
      rw [he]
      exact lt_of_le_of_lt (mul_le_mul_of_nonneg_left hEb hη.le) hρ
    have h1 := hLip t (Ico_subset_Icc_self ht) hlt
    have h2 : max ‖x t - y t‖ κ ≤ η * Real.exp ((L + 1) * (t - a)) := max_le he.le (hκ.trans hB)
    have h3 := mul_le_mul_of_nonneg_left h2 hL
    have h4 : 0 < η * Real.exp ((L + 1) * (t - a)) := mul_pos hη (Real.exp_pos _)
    nlinarith

/-- Around a solution along which the right hand side is strictly differentiable: it is Lipschitz in a tube, solutions that start close
to the solution stay close to it, and to each other. -/
structure Tube (f : X × Q → X) (a b : ℝ) (x : ℝ → X) (q : Q) (L ρ C : ℝ) : Prop where
  L0 : 0 ≤ L
  ρ0 : 0 < ρ
  C1 : 1 ≤ C
  exp : ∀ t ∈ Icc a b, Real.exp ((L + 1) * (t - a)) ≤ C
  lip : ∀ t ∈ Icc a b, ∀ z w, dist z (x t, q) < ρ → dist w (x t, q) < ρ → ‖f z - f w‖ ≤ L * ‖z - w‖
  near : ∀ (η : ℝ), 0 < η → η * C < ρ → ∀ (y : ℝ → X) (p : Q), Follows f p a b y → ‖y a - x a‖ ≤ η → ‖p - q‖ ≤ η →
    ∀ t ∈ Icc a b, dist (y t, p) (x t, q) ≤ η * C
  both : ∀ (y1 y2 : ℝ → X) (p1 p2 : Q), Follows f p1 a b y1 → Follows f p2 a b y2 →
    (∀ t ∈ Icc a b, dist (y1 t, p1) (x t, q) < ρ) → (∀ t ∈ Icc a b, dist (y2 t, p2) (x t, q) < ρ) →
    ∀ t ∈ Icc a b, ‖y1 t - y2 t‖ ≤ C * ‖(y1 a, p1) - (y2 a, p2)‖

theorem exists_tube {f : X × Q → X} {f' : ℝ → X × Q →L[ℝ] X} {a b : ℝ} (hab : a ≤ b) {x : ℝ → X} {q : Q} (hx : Follows f q a b x)
    (hf : ∀ t ∈ Icc a b, HasStrictFDerivAt f (f' t) (x t, q)) : ∃ L ρ C, Tube f a b x q L ρ C := by
  have hγ : ContinuousOn (fun t => (x t, q)) (Icc a b) := hx.cont.prodMk continuousOn_const
  obtain ⟨M, hM0, hM⟩ := strict_bounded hγ hf
  obtain ⟨ρ, hρ, hu1⟩ := strict_uniform hγ hf one_pos
  have hLip : ∀ t ∈ Icc a b, ∀ z w, dist z (x t, q) < ρ → dist w (x t, q) < ρ → ‖f z - f w‖ ≤ (M + 1) * ‖z - w‖ := by
    intro t ht z w hz hw
    have h1 := hu1 t ht z w hz hw
    have h2 := ((f' t).le_opNorm (z - w)).trans (mul_le_mul_of_nonneg_right (hM t ht) (norm_nonneg _))
    have h3 : f z - f w = (f z - f w - f' t (z - w)) + f' t (z - w) := by abel
    rw [h3]
    exact (norm_add_le _ _).trans (by linarith)
  set C := Real.exp ((M + 1 + 1) * (b - a)) with hC
  have hC1 : 1 ≤ C := Real.one_le_exp (mul_nonneg (by linarith) (by linarith))
  have hC0 : 0 < C := by linarith
  have hexp : ∀ t ∈ Icc a b, Real.exp ((M + 1 + 1) * (t - a)) ≤ C := fun t ht =>
    Real.exp_le_exp.2 (mul_le_mul_of_nonneg_left (by linarith [ht.2]) (by linarith))
  refine ⟨M + 1, ρ, C, ⟨by linarith, hρ, hC1, hexp, hLip, ?_, ?_⟩⟩
  · intro η hη hηρ y p hy h1 h2 t ht
    have := stay_close hy hx (L := M + 1) (by linarith) hη h1 h2 hηρ (fun s hs hlt => by
      have hp : ‖p - q‖ < ρ := lt_of_le_of_lt h2 (lt_of_le_of_lt (le_mul_of_one_le_right hη.le hC1) hηρ)
      have h3 := hLip s hs (y s, p) (x s, q) (by
        rw [Prod.dist_eq, dist_eq_norm, dist_eq_norm]; exact max_lt hlt hp) (by rw [dist_self]; exact hρ)
      rwa [Prod.mk_sub_mk, Prod.norm_def] at h3) t ht
    rw [Prod.dist_eq, dist_eq_norm, dist_eq_norm]
    exact max_le (this.trans (mul_le_mul_of_nonneg_left (hexp t ht) hη.le)) (h2.trans (le_mul_of_one_le_right hη.le hC1))
  · intro y1 y2 p1 p2 h1 h2 d1 d2 t ht
    set D := ‖(y1 a, p1) - (y2 a, p2)‖ with hD
    have hDa : ‖y1 a - y2 a‖ ≤ D := by
      rw [hD, Prod.mk_sub_mk, Prod.norm_def]; exact le_max_left _ _
    have hDp : ‖p1 - p2‖ ≤ D := by
      rw [hD, Prod.mk_sub_mk, Prod.norm_def]; exact le_max_right _ _
    have hD0 : 0 ≤ D := norm_nonneg _
    refine le_of_forall_pos_le_add fun κ hκ => ?_
    have hη : 0 < D + κ / C := add_pos_of_nonneg_of_pos hD0 (div_pos hκ hC0)
    have := stay_close h1 h2 (L := M + 1) (by linarith) hη (hDa.trans (by linarith [div_pos hκ hC0])) (hDp.trans (by linarith [div_pos hκ hC0]))
      (lt_add_one _) (fun s hs _ => by
        have h3 := hLip s hs (y1 s, p1) (y2 s, p2) (d1 s hs) (d2 s hs)
        rwa [Prod.mk_sub_mk, Prod.norm_def] at h3) t ht
    refine this.trans ((mul_le_mul_of_nonneg_left (hexp t ht) hη.le).trans (le_of_eq ?_))
    field_simp

/-- Solutions that start close to the solution stay within `σ` of it. -/
theorem Tube.within {f : X × Q → X} {a b : ℝ} {x : ℝ → X} {q : Q} {L ρ C : ℝ} (hT : Tube f a b x q L ρ C) {σ : ℝ} (hσ : 0 < σ) :
    ∀ᶠ z in 𝓝 (x a, q), ∀ ξ, ξ a = z.1 → Follows f z.2 a b ξ → ∀ t ∈ Icc a b, dist (ξ t, z.2) (x t, q) < σ := by
  have hC0 : 0 < C := by linarith [hT.C1]
  have hm : 0 < min σ ρ := lt_min hσ hT.ρ0
  have hη : 0 < min σ ρ / (2 * C) := div_pos hm (by linarith)
  have hηC : min σ ρ / (2 * C) * C = min σ ρ / 2 := by field_simp
  filter_upwards [Metric.ball_mem_nhds (x a, q) hη] with z hz ξ h1 h3 t ht
  rw [Metric.mem_ball, Prod.dist_eq, dist_eq_norm, dist_eq_norm] at hz
  have := hT.near _ hη (by rw [hηC]; linarith [min_le_right σ ρ]) ξ z.2 h3 (by rw [h1]; exact (le_max_left _ _).trans hz.le)
    ((le_max_right _ _).trans hz.le) t ht
  rw [hηC] at this
  linarith [min_le_left σ ρ]

/-- They are determined by their start. -/
theorem Tube.unique {f : X × Q → X} {a b : ℝ} {x : ℝ → X} {q : Q} {L ρ C : ℝ} (hT : Tube f a b x q L ρ C) :
    ∀ᶠ z in 𝓝 (x a, q), ∀ ξ ζ, ξ a = z.1 → ζ a = z.1 → Follows f z.2 a b ξ → Follows f z.2 a b ζ → ∀ t ∈ Icc a b, ξ t = ζ t := by
  filter_upwards [hT.within hT.ρ0] with z hz ξ ζ h1 h2 h3 h4 t ht
  have := hT.both ξ ζ z.2 z.2 h3 h4 (hz ξ h1 h3) (hz ζ h2 h4) t ht
  rw [h1, h2, sub_self, norm_zero, mul_zero] at this
  exact sub_eq_zero.1 (norm_le_zero_iff.1 this)

/-! ### Existence -/

section exist
variable {E : Type*} [NormedAddCommGroup E] [NormedSpace ℝ E]

/-- Two solutions of differential equations that meet are one. -/
theorem glue {v : ℝ → E → E} {a c d : ℝ} (hac : a ≤ c) (hcd : c ≤ d) {u w : ℝ → E}
    (hu : ∀ t ∈ Icc a c, HasDerivWithinAt u (v t (u t)) (Icc a c) t) (hw : ∀ t ∈ Icc c d, HasDerivWithinAt w (v t (w t)) (Icc c d) t)
    (h : u c = w c) : ∃ y : ℝ → E, (∀ t ∈ Icc a c, y t = u t) ∧ (∀ t ∈ Icc c d, y t = w t) ∧
      ∀ t ∈ Icc a d, HasDerivWithinAt y (v t (y t)) (Icc a d) t := by
  classical
  let y : ℝ → E := fun t => if t ≤ c then u t else w t
  have y1 : ∀ t ∈ Icc a c, y t = u t := fun t ht => if_pos ht.2
  have y2 : ∀ t ∈ Icc c d, y t = w t := fun t ht => by
    by_cases hc : t ≤ c
    · have : t = c := le_antisymm hc ht.1
      subst this
      rw [show y t = u t from if_pos le_rfl, h]
    · exact if_neg hc
  have d1 : ∀ t ∈ Icc a c, HasDerivWithinAt y (v t (y t)) (Icc a c) t := fun t ht => by
    rw [y1 t ht]
    exact (hu t ht).congr (fun s hs => y1 s hs) (y1 t ht)
  have d2 : ∀ t ∈ Icc c d, HasDerivWithinAt y (v t (y t)) (Icc c d) t := fun t ht => by
    rw [y2 t ht]
    exact (hw t ht).congr (fun s hs => y2 s hs) (y2 t ht)
  refine ⟨y, y1, y2, fun t ht => ?_⟩
  rcases lt_trichotomy t c with hlt | rfl | hgt
  · refine (d1 t ⟨ht.1, hlt.le⟩).mono_of_mem_nhdsWithin ?_
    rw [mem_nhdsWithin]
    exact ⟨Iio c, isOpen_Iio, hlt, fun s hs => ⟨hs.2.1, le_of_lt hs.1⟩⟩
  · have := (d1 t ⟨hac, le_rfl⟩).union (d2 t ⟨le_rfl, hcd⟩)
    rwa [Icc_union_Icc_eq_Icc hac hcd] at this
  · refine (d2 t ⟨hgt.le, ht.2⟩).mono_of_mem_nhdsWithin ?_
    rw [mem_nhdsWithin]
    exact ⟨Ioi c, isOpen_Ioi, hgt, fun s hs => ⟨le_of_lt hs.1, hs.2.2⟩⟩

/-- Differential equations with a Lipschitz right hand side have solutions for all times. -/
theorem exists_solution [CompleteSpace E] {v : ℝ → E → E} {a b : ℝ} (hab : a ≤ b) {K : ℝ≥0} (hK : ∀ t ∈ Icc a b, LipschitzWith K (v t))
    (hv : ∀ x, ContinuousOn (fun t => v t x) (Icc a b)) (x : E) :
    ∃ y : ℝ → E, y a = x ∧ ∀ t ∈ Icc a b, HasDerivWithinAt y (v t (y t)) (Icc a b) t := by
  obtain ⟨B, hB⟩ := isCompact_Icc.exists_bound_of_continuousOn (hv 0)
  have hB0 : 0 ≤ B := (norm_nonneg _).trans (hB a ⟨le_rfl, hab⟩)
  have hh : 0 < 1 / (1 + 2 * (K : ℝ)) := by positivity
  set h := 1 / (1 + 2 * (K : ℝ)) with hdef
  have step : ∀ c d, a ≤ c → c ≤ d → d ≤ b → d - c ≤ h → ∀ x : E, ∃ w : ℝ → E, w c = x ∧
      ∀ t ∈ Icc c d, HasDerivWithinAt w (v t (w t)) (Icc c d) t := by
    intro c d hac hcd hdb hdc x
    have hsub : Icc c d ⊆ Icc a b := Icc_subset_Icc hac hdb
    have hR : 0 ≤ ‖x‖ + 1 + B := by positivity
    have hL : 0 ≤ (1 + 2 * (K : ℝ)) * (‖x‖ + 1 + B) := by positivity
    refine IsPicardLindelof.exists_eq_forall_mem_Icc_hasDerivWithinAt₀ (f := v) (t₀ := ⟨c, le_rfl, hcd⟩) (x₀ := x)
      (a := ⟨‖x‖ + 1 + B, hR⟩) (L := ⟨(1 + 2 * (K : ℝ)) * (‖x‖ + 1 + B), hL⟩) (K := K)
      ⟨fun t ht => (hK t (hsub ht)).lipschitzOnWith, fun y _ => (hv y).mono hsub, fun t ht y hy => ?_, ?_⟩
    · have h1 := hB t (hsub ht)
      have h2 := (hK t (hsub ht)).dist_le_mul y 0
      rw [dist_eq_norm, dist_zero_right] at h2
      rw [Metric.mem_closedBall, dist_eq_norm] at hy
      change ‖y - x‖ ≤ ‖x‖ + 1 + B at hy
      change ‖v t y‖ ≤ (1 + 2 * (K : ℝ)) * (‖x‖ + 1 + B)
      have h3 : ‖y‖ ≤ 2 * (‖x‖ + 1 + B) := by
        have := norm_add_le (y - x) x
        rw [sub_add_cancel] at this
        linarith
      have h4 : ‖v t y‖ ≤ ‖v t y - v t 0‖ + ‖v t 0‖ := by
        have := norm_add_le (v t y - v t 0) (v t 0)
        rwa [sub_add_cancel] at this
      have h5 := mul_le_mul_of_nonneg_left h3 K.2
      have h6 := norm_nonneg x
      change (K : ℝ) * ‖y‖ ≤ (K : ℝ) * _ at h5
      nlinarith
    · change (1 + 2 * (K : ℝ)) * (‖x‖ + 1 + B) * max (d - c) (c - c) ≤ (‖x‖ + 1 + B) - 0
      rw [sub_self, sub_zero, max_eq_left (by linarith)]
      have : (1 + 2 * (K : ℝ)) * (d - c) ≤ 1 := by
        have h1 := mul_le_mul_of_nonneg_left hdc (show (0 : ℝ) ≤ 1 + 2 * (K : ℝ) by positivity)
        rwa [hdef, mul_one_div_cancel (by positivity)] at h1
      nlinarith
  have all : ∀ k : ℕ, ∃ y : ℝ → E, y a = x ∧ ∀ t ∈ Icc a (min (a + k * h) b), HasDerivWithinAt y (v t (y t)) (Icc a (min (a + k * h) b)) t := by
    intro k
    induction k with
    | zero =>
      obtain ⟨w, h1, h2⟩ := step a a le_rfl le_rfl hab (by linarith) x
      refine ⟨w, h1, ?_⟩
      rw [Nat.cast_zero, zero_mul, add_zero, min_eq_left hab]
      exact h2
    | succ k ih =>
      obtain ⟨u, hu1, hu2⟩ := ih
      have e : a + ((k + 1 : ℕ) : ℝ) * h = a + k * h + h := by push_cast; ring
      have hk : 0 ≤ (k : ℝ) * h := by positivity
      have hc1 : a ≤ min (a + k * h) b := le_min (by linarith) hab
      have hc2 : min (a + k * h) b ≤ min (a + ((k + 1 : ℕ) : ℝ) * h) b := min_le_min_right _ (by rw [e]; linarith)
      obtain ⟨w, hw1, hw2⟩ := step (min (a + k * h) b) (min (a + ((k + 1 : ℕ) : ℝ) * h) b) hc1 hc2 (min_le_right _ _) (by
        rw [e]
        rcases le_total (a + k * h) b with h1 | h1
        · rw [min_eq_left h1]
          linarith [min_le_left (a + k * h + h) b]
        · rw [min_eq_right h1]
          linarith [min_le_right (a + k * h + h) b]) (u (min (a + k * h) b))
      obtain ⟨y, y1, -, y3⟩ := glue hc1 hc2 hu2 hw2 hw1.symm
      exact ⟨y, (y1 a ⟨le_rfl, hc1⟩).trans hu1, y3⟩
  obtain ⟨k, hk⟩ := exists_nat_ge ((b - a) / h)
  obtain ⟨y, h1, h2⟩ := all k
  have : min (a + k * h) b = b := min_eq_right (by
    rw [div_le_iff₀ hh] at hk
    linarith)
  rw [this] at h2
  exact ⟨y, h1, h2⟩

end exist

/-- The cube with the side `2 σ` around zero. -/
def clamp {n : Nat} (σ : ℝ) (v : Fin n → ℝ) : Fin n → ℝ := fun j => max (-σ) (min σ (v j))

theorem clamp_norm {n : Nat} {σ : ℝ} (hσ : 0 ≤ σ) (v : Fin n → ℝ) : ‖clamp σ v‖ ≤ σ := by
  refine (pi_norm_le_iff_of_nonneg hσ).2 fun j => ?_
  rw [Real.norm_eq_abs, abs_le]
  exact ⟨le_max_left _ _, max_le (by linarith) (min_le_left _ _)⟩

theorem clamp_eq {n : Nat} {σ : ℝ} {v : Fin n → ℝ} (h : ‖v‖ ≤ σ) : clamp σ v = v := by
  funext j
  have := abs_le.1 ((Real.norm_eq_abs _).symm.le.trans ((norm_le_pi_norm v j).trans h))
  rw [clamp, min_eq_right this.2, max_eq_right this.1]

theorem clamp_lip {n : Nat} {σ : ℝ} (v w : Fin n → ℝ) : ‖clamp σ v - clamp σ w‖ ≤ ‖v - w‖ := by
  refine (pi_norm_le_iff_of_nonneg (norm_nonneg _)).2 fun j => ?_
  rw [Pi.sub_apply, Real.norm_eq_abs]
  refine le_trans ?_ (norm_le_pi_norm (v - w) j)
  rw [Pi.sub_apply, Real.norm_eq_abs, clamp, clamp]
  rcases abs_cases (v j - w j) with ⟨h1, h2⟩ | ⟨h1, h2⟩ <;> rw [h1, abs_le] <;>
    constructor <;> rcases max_cases (-σ) (min σ (v j)) with ⟨h3, h4⟩ | ⟨h3, h4⟩ <;>
    rcases max_cases (-σ) (min σ (w j)) with ⟨h5, h6⟩ | ⟨h5, h6⟩ <;> rcases min_cases σ (v j) with ⟨h7, h8⟩ | ⟨h7, h8⟩ <;>
    rcases min_cases σ (w j) with ⟨h9, h10⟩ | ⟨h9, h10⟩ <;> linarith

/-- Near a solution there is a solution from every start. -/
theorem Tube.exists {n : Nat} {f : (Fin n → ℝ) × Q → Fin n → ℝ} {a b : ℝ} (hab : a ≤ b) {x : ℝ → Fin n → ℝ} {q : Q} {L ρ C : ℝ}
    (hT : Tube f a b x q L ρ C) (hx : Follows f q a b x) :
    ∀ᶠ z in 𝓝 (x a, q), ∃ ξ, ξ a = z.1 ∧ Follows f z.2 a b ξ := by
  have hC0 : 0 < C := by linarith [hT.C1]
  have hρ := hT.ρ0
  have hη : 0 < ρ / (4 * C) := by positivity
  have hηC : ρ / (4 * C) * C = ρ / 4 := by field_simp
  filter_upwards [Metric.ball_mem_nhds (x a, q) hη] with z hz
  rw [Metric.mem_ball, Prod.dist_eq, dist_eq_norm, dist_eq_norm] at hz
  have hz1 : ‖z.1 - x a‖ ≤ ρ / (4 * C) := (le_max_left _ _).trans hz.le
  have hz2 : ‖z.2 - q‖ ≤ ρ / (4 * C) := (le_max_right _ _).trans hz.le
  have hle : ρ / (4 * C) ≤ ρ / 4 := by
    rw [← hηC]
    exact le_mul_of_one_le_right hη.le hT.C1
  have hin : ∀ t ∈ Icc a b, ∀ y : Fin n → ℝ, dist (x t + clamp (ρ / 2) (y - x t), z.2) (x t, q) < ρ := by
    intro t _ y
    rw [Prod.dist_eq, dist_eq_norm, dist_eq_norm, add_sub_cancel_left]
    exact max_lt (lt_of_le_of_lt (clamp_norm (by linarith) _) (by linarith)) (by linarith)
  obtain ⟨ξ, h1, h2⟩ := exists_solution (v := fun t y => f (x t + clamp (ρ / 2) (y - x t), z.2)) hab (K := ⟨L, hT.L0⟩)
    (fun t ht => by
      refine LipschitzWith.of_dist_le_mul fun y y' => ?_
      rw [dist_eq_norm, dist_eq_norm]
      have h3 := hT.lip t ht _ _ (hin t ht y) (hin t ht y')
      rw [Prod.mk_sub_mk, sub_self, add_sub_add_left_eq_sub, Prod.norm_def] at h3
      have h4 := clamp_lip (σ := ρ / 2) (y - x t) (y' - x t)
      rw [sub_sub_sub_cancel_right] at h4
      refine h3.trans (mul_le_mul_of_nonneg_left ?_ hT.L0)
      simpa using h4) (fun y t ht => by
      have hc : ContinuousAt f (x t + clamp (ρ / 2) (y - x t), z.2) := by
        have : LipschitzOnWith ⟨L, hT.L0⟩ f (Metric.ball (x t, q) ρ) := LipschitzOnWith.of_dist_le_mul fun z hz w hw => by
          rw [dist_eq_norm, dist_eq_norm]
          exact hT.lip t ht z w hz hw
        exact this.continuousOn.continuousAt (Metric.isOpen_ball.mem_nhds (hin t ht y))
      have hcl : Continuous (clamp (n := n) (ρ / 2)) := by
        refine continuous_pi fun j => ?_
        exact continuous_const.max (continuous_const.min (continuous_apply j))
      refine hc.comp_continuousWithinAt (f := fun t => (x t + clamp (ρ / 2) (y - x t), z.2)) ?_
      have hxt := hx.cont t ht
      exact (hxt.add (hcl.continuousAt.comp_continuousWithinAt (continuousWithinAt_const.sub hxt))).prodMk continuousWithinAt_const) z.1
  have hclose : ∀ t ∈ Icc a b, ‖ξ t - x t‖ ≤ ρ / 2 := by
    intro t ht
    have h3 := stay_close h2 hx (L := L) (κ := ‖z.2 - q‖) (ρ := ρ / (4 * C) * Real.exp ((L + 1) * (b - a)) + 1) hT.L0 hη
      (by rw [h1]; exact hz1) hz2 (lt_add_one _) (fun s hs _ => by
        have h4 := hT.lip s hs _ (x s, q) (hin s hs (ξ s)) (by rw [dist_self]; exact hρ)
        rw [Prod.mk_sub_mk, add_sub_cancel_left, Prod.norm_def] at h4
        refine h4.trans (mul_le_mul_of_nonneg_left (max_le_max ?_ le_rfl) hT.L0)
        have h5 := clamp_lip (σ := ρ / 2) (ξ s - x s) 0
        rwa [clamp_eq (v := 0) (by rw [norm_zero]; linarith), sub_zero, sub_zero] at h5) t ht
    have h4 := mul_le_mul_of_nonneg_left (hT.exp t ht) hη.le
    linarith
  refine ⟨ξ, h1, fun t ht => ?_⟩
  have h3 := h2 t ht
  rwa [clamp_eq (hclose t ht), add_sub_cancel] at h3

/-! ### The derivative of the flow -/

/-- The derivatives `W t` of the state at the time `t` by the state at the time `a` and the parameters solve the linearised equations. -/
structure Sens (f' : ℝ → X × Q →L[ℝ] X) (a b : ℝ) (W : ℝ → X × Q →L[ℝ] X) : Prop where
  start : W a = ContinuousLinearMap.fst ℝ X Q
  rate : ∀ t ∈ Icc a b, ∀ z : X × Q, HasDerivWithinAt (fun τ => W τ z) (f' t (W t z, z.2)) (Icc a b) t

theorem flow_strict {f : X × Q → X} {f' : ℝ → X × Q →L[ℝ] X} {a b : ℝ} (hab : a ≤ b) {x : ℝ → X} {q : Q} (hx : Follows f q a b x)
    (hf : ∀ t ∈ Icc a b, HasStrictFDerivAt f (f' t) (x t, q)) {W : ℝ → X × Q →L[ℝ] X} (hW : Sens f' a b W) {Φ : X × Q → X}
    (hΦ : ∀ᶠ z in 𝓝 (x a, q), ∃ ξ, ξ a = z.1 ∧ ξ b = Φ z ∧ Follows f z.2 a b ξ) :
    HasStrictFDerivAt Φ (W b) (x a, q) ∧ Φ (x a, q) = x b := by
  have hγ : ContinuousOn (fun t => (x t, q)) (Icc a b) := hx.cont.prodMk continuousOn_const
  obtain ⟨M, hM0, hM⟩ := strict_bounded hγ hf
  obtain ⟨L, ρ, C, hT⟩ := exists_tube hab hx hf
  have hρ := hT.ρ0
  have hC1 := hT.C1
  have hC0 : 0 < C := by linarith
  have both := hT.both
  have tube : ∀ σ, 0 < σ → ∀ᶠ z in 𝓝 (x a, q), ∃ ξ, ξ a = z.1 ∧ ξ b = Φ z ∧ Follows f z.2 a b ξ ∧
      ∀ t ∈ Icc a b, dist (ξ t, z.2) (x t, q) < σ := by
    intro σ hσ
    filter_upwards [hΦ, hT.within hσ] with z ⟨ξ, h1, h2, h3⟩ hz
    exact ⟨ξ, h1, h2, h3, hz ξ h1 h3⟩
  have hb : b ∈ Icc a b := right_mem_Icc.2 hab
  constructor
  · refine HasStrictFDerivAt.of_isLittleO ?_
    rw [Asymptotics.isLittleO_iff]
    intro c hc
    set G := gronwallBound 0 (M + 1) 1 (b - a) with hG
    have hM1 : M + 1 ≠ 0 := by linarith
    have hG0 : 0 ≤ G := by
      rw [hG, gronwallBound_of_K_ne_0 hM1]
      dsimp only
      rw [zero_mul, zero_add]
      exact mul_nonneg (div_nonneg zero_le_one (by linarith))
        (sub_nonneg.2 (Real.one_le_exp (mul_nonneg (by linarith) (by linarith))))
    obtain ⟨σ, hσ, hu⟩ := strict_uniform hγ hf (ε := c / (C * (G + 1))) (by positivity)
    have ht := tube (min σ ρ) (lt_min hσ hρ)
    have := ht.prod_nhds ht
    filter_upwards [this] with ⟨z1, z2⟩ ⟨⟨ξ1, s1, e1, f1, d1⟩, ⟨ξ2, s2, e2, f2, d2⟩⟩
    dsimp only at s1 e1 f1 d1 s2 e2 f2 d2 ⊢
    have hz1 : (ξ1 a, z1.2) = z1 := by rw [s1]
    have hz2 : (ξ2 a, z2.2) = z2 := by rw [s2]
    have hclose := both ξ1 ξ2 z1.2 z2.2 f1 f2 (fun t ht => (d1 t ht).trans_le (min_le_right _ _))
      (fun t ht => (d2 t ht).trans_le (min_le_right _ _))
    rw [hz1, hz2] at hclose
    have hq : ‖z1.2 - z2.2‖ ≤ C * ‖z1 - z2‖ := by
      have : ‖z1.2 - z2.2‖ ≤ ‖z1 - z2‖ := by rw [Prod.norm_def]; exact le_max_right _ _
      exact this.trans (le_mul_of_one_le_left (norm_nonneg _) hC1)
    -- the error of the linearisation
    have key := norm_le_gronwallBound_of_norm_deriv_right_le (f := fun t => ξ1 t - ξ2 t - W t (z1 - z2))
      (f' := fun t => f (ξ1 t, z1.2) - f (ξ2 t, z2.2) - f' t (W t (z1 - z2), (z1 - z2).2)) (δ := 0) (K := M + 1)
      (ε := c / (G + 1) * ‖z1 - z2‖) (a := a) (b := b)
      ((f1.cont.sub f2.cont).sub fun t ht => (hW.rate t ht _).continuousWithinAt)
      (fun t ht => ((f1.right t ht).sub (f2.right t ht)).sub
        ((hW.rate t (Ico_subset_Icc_self ht) _).mono_of_mem_nhdsWithin (Icc_mem_nhdsGE_of_mem ht)))
      (by
        rw [hW.start, s1, s2]
        simp)
      (fun t ht => by
        have ht' := Ico_subset_Icc_self ht
        have h1 := hu t ht' (ξ1 t, z1.2) (ξ2 t, z2.2) ((d1 t ht').trans_le (min_le_left _ _)) ((d2 t ht').trans_le (min_le_left _ _))
        rw [Prod.mk_sub_mk] at h1
        have h2 : ‖(ξ1 t - ξ2 t, z1.2 - z2.2)‖ ≤ C * ‖z1 - z2‖ := by
          rw [Prod.norm_def]; exact max_le (hclose t ht') hq
        have h3 : c / (C * (G + 1)) * ‖(ξ1 t - ξ2 t, z1.2 - z2.2)‖ ≤ c / (G + 1) * ‖z1 - z2‖ := by
          refine (mul_le_mul_of_nonneg_left h2 (by positivity)).trans (le_of_eq ?_)
          field_simp
        have h4 : f (ξ1 t, z1.2) - f (ξ2 t, z2.2) - f' t (W t (z1 - z2), (z1 - z2).2) =
            (f (ξ1 t, z1.2) - f (ξ2 t, z2.2) - f' t (ξ1 t - ξ2 t, z1.2 - z2.2)) + f' t (ξ1 t - ξ2 t - W t (z1 - z2), 0) := by
          have : (W t (z1 - z2), (z1 - z2).2) = (ξ1 t - ξ2 t, z1.2 - z2.2) - (ξ1 t - ξ2 t - W t (z1 - z2), (0 : Q)) := by
            refine Prod.ext ?_ ?_
            · exact (sub_sub_cancel _ _).symm
            · exact (sub_zero _).symm
          rw [this, map_sub]
          abel
        rw [h4]
        have h5 : ‖f' t (ξ1 t - ξ2 t - W t (z1 - z2), 0)‖ ≤ M * ‖ξ1 t - ξ2 t - W t (z1 - z2)‖ := by
          refine ((f' t).le_opNorm _).trans (mul_le_mul (hM t ht') ?_ (norm_nonneg _) hM0)
          rw [Prod.norm_def]
          simp
        have h6 := norm_nonneg (ξ1 t - ξ2 t - W t (z1 - z2))
        refine (norm_add_le _ _).trans ?_
        linarith) b hb
    have hgb : gronwallBound 0 (M + 1) (c / (G + 1) * ‖z1 - z2‖) (b - a) = c / (G + 1) * ‖z1 - z2‖ * G := by
      rw [hG, gronwallBound_of_K_ne_0 hM1, gronwallBound_of_K_ne_0 hM1]
      ring
    rw [hgb, e1, e2] at key
    refine key.trans ?_
    have : c / (G + 1) * ‖z1 - z2‖ * G = c * ‖z1 - z2‖ * (G / (G + 1)) := by ring
    rw [this]
    exact mul_le_of_le_one_right (by positivity) ((div_le_one (by linarith)).2 (by linarith))
  · obtain ⟨ξ, h1, h2, h3, h4⟩ := (tube ρ hρ).self_of_nhds
    have := both ξ x q q h3 hx h4 (fun t _ => by rw [dist_self]; exact hρ) b hb
    rw [h1, sub_self, norm_zero, mul_zero] at this
    rw [← h2]
    exact sub_eq_zero.1 (norm_le_zero_iff.1 this)

section sens
variable {X Q : Type*} [NormedAddCommGroup X] [NormedSpace ℝ X] [CompleteSpace X] [NormedAddCommGroup Q] [NormedSpace ℝ Q]

/-- The linearised equations have solutions. -/
theorem exists_sens {f : X × Q → X} {f' : ℝ → X × Q →L[ℝ] X} {a b : ℝ} (hab : a ≤ b) {γ : ℝ → X × Q} (hγ : ContinuousOn γ (Icc a b))
    (hf : ∀ t ∈ Icc a b, HasStrictFDerivAt f (f' t) (γ t)) : ∃ W, Sens f' a b W := by
  obtain ⟨M, hM0, hM⟩ := strict_bounded hγ hf
  have hcont : ContinuousOn f' (Icc a b) := by
    intro t ht
    rw [Metric.continuousWithinAt_iff]
    intro ε hε
    obtain ⟨δ, hδ, hu⟩ := strict_uniform hγ hf (ε := ε / 4) (by linarith)
    obtain ⟨σ, hσ, hc⟩ := Metric.continuousWithinAt_iff.1 (hγ t ht) (δ / 2) (by linarith)
    refine ⟨σ, hσ, fun s hs hst => ?_⟩
    have hd := hc hs hst
    have := strict_compare (hf t ht) (Metric.ball_mem_nhds (γ t) (show 0 < δ / 2 by linarith)) (B := f' s) (show 0 < ε / 4 by linarith) (by
      intro z hz w hw
      rw [Metric.mem_ball] at hz hw
      rw [dist_comm] at hd
      exact hu s hs z w (by linarith [dist_triangle z (γ t) (γ s)]) (by linarith [dist_triangle w (γ t) (γ s)]))
    rw [dist_eq_norm]
    linarith
  obtain ⟨W, h1, h2⟩ := exists_solution (E := X × Q →L[ℝ] X) (v := fun t W => (f' t).comp (W.prod (ContinuousLinearMap.snd ℝ X Q))) hab
    (K := ⟨M, hM0⟩) (fun t ht => by
      refine LipschitzWith.of_dist_le_mul fun U V => ?_
      rw [dist_eq_norm, dist_eq_norm]
      refine ContinuousLinearMap.opNorm_le_bound _ (by positivity) fun z => ?_
      have e : ((f' t).comp (U.prod (ContinuousLinearMap.snd ℝ X Q)) - (f' t).comp (V.prod (ContinuousLinearMap.snd ℝ X Q))) z =
          f' t ((U - V) z, 0) := by
        rw [ContinuousLinearMap.sub_apply, ContinuousLinearMap.comp_apply, ContinuousLinearMap.comp_apply, ← map_sub]
        congr 1
        simp
      rw [e]
      have h3 := (f' t).le_opNorm ((U - V) z, 0)
      have h4 : ‖((U - V) z, (0 : Q))‖ ≤ ‖U - V‖ * ‖z‖ := by
        rw [Prod.norm_def]
        simpa using (U - V).le_opNorm z
      have h5 := mul_le_mul (hM t ht) h4 (norm_nonneg _) hM0
      change _ ≤ M * ‖U - V‖ * ‖z‖
      linarith) (fun W => hcont.clm_comp continuousOn_const) (ContinuousLinearMap.fst ℝ X Q)
  refine ⟨W, h1, fun t ht z => ?_⟩
  have := (ContinuousLinearMap.apply ℝ X z).hasFDerivAt.comp_hasDerivWithinAt t (h2 t ht)
  simpa [Function.comp_def] using this

end sens

end Beluga.Flow
