import Verif.EndToEnd.Cycloid
import Mathlib.Analysis.SpecialFunctions.Arsinh
import Mathlib.Analysis.SpecialFunctions.Integrals.Basic
import Mathlib.MeasureTheory.Integral.IntervalIntegral.FundThmCalculus

/-!
# Hanging chains are catenaries

The first-order conditions of the problem of the hanging chain, as real functions, and their consequences.
-/

namespace Beluga.E2E

open Real

/-! ### Specification -/

/-- A chain of length `l` between two points: the point at arc length `s` is `(x s, y s)`, where the chain has the direction `θ s`. -/
structure Chained (l x0 y0 x1 y1 : ℝ) (x y θ : ℝ → ℝ) : Prop where
  start : x 0 = x0 ∧ y 0 = y0
  stop : x l = x1 ∧ y l = y1
  continuous : ContinuousOn x (Set.Icc 0 l) ∧ ContinuousOn y (Set.Icc 0 l)
  direction : ∀ s ∈ Set.Ioo 0 l, HasDerivAt x (cos (θ s)) s ∧ HasDerivAt y (sin (θ s)) s

/-- How high the chain hangs: its potential energy up to a factor. -/
noncomputable def height (l : ℝ) (y : ℝ → ℝ) : ℝ := ∫ s in (0 : ℝ)..l, y s

/-- The curve is the only lowest one of the chains of this length between these points. -/
def Lowest (l x0 y0 x1 y1 : ℝ) (x y : ℝ → ℝ) : Prop := ∀ X Y Θ, Chained l x0 y0 x1 y1 X Y Θ →
  height l y ≤ height l Y ∧ (height l Y = height l y → ∀ s ∈ Set.Icc 0 l, X s = x s ∧ Y s = y s)

/-- The curve is the only highest one of the chains of this length between these points. -/
def Highest (l x0 y0 x1 y1 : ℝ) (x y : ℝ → ℝ) : Prop := ∀ X Y Θ, Chained l x0 y0 x1 y1 X Y Θ →
  height l Y ≤ height l y ∧ (height l Y = height l y → ∀ s ∈ Set.Icc 0 l, X s = x s ∧ Y s = y s)

/-- The point at arc length `s` of the catenary with the parameter `k` and the vertex at `s₁`, `(x₁, y₁)`: it runs to the right for
`δ = 1`, to the left for `δ = -1`, hangs for `σ = 1` and stands as an arch for `σ = -1`. -/
noncomputable def catenary (k s₁ x₁ y₁ δ σ s : ℝ) : ℝ × ℝ :=
  (x₁ + δ * (k * arsinh ((s - s₁) / k)), y₁ + σ * (k * cosh (arsinh ((s - s₁) / k))))

/-! ### Lemmas -/

/-- A catenary is a graph of the hyperbolic cosine. -/
theorem catenary_graph {k s₁ x₁ y₁ δ σ : ℝ} (hk : 0 < k) (hδ : δ = 1 ∨ δ = -1) (s : ℝ) :
    (catenary k s₁ x₁ y₁ δ σ s).2 = y₁ + σ * (k * cosh (((catenary k s₁ x₁ y₁ δ σ s).1 - x₁) / k)) := by
  have h := hk.ne'
  simp only [catenary]
  rcases hδ with rfl | rfl
  · rw [show (x₁ + 1 * (k * arsinh ((s - s₁) / k)) - x₁) / k = arsinh ((s - s₁) / k) by field_simp; ring]
  · rw [show (x₁ + -1 * (k * arsinh ((s - s₁) / k)) - x₁) / k = -arsinh ((s - s₁) / k) by field_simp; ring, cosh_neg]

theorem chain_norm {k : ℝ} (hk : 0 < k) (w : ℝ) : √(1 + (w / k) ^ 2) = √(k ^ 2 + w ^ 2) / k := by
  rw [eq_div_iff hk.ne', ← sqrt_sq hk.le, ← sqrt_mul (by positivity), sqrt_sq hk.le]
  congr 1
  field_simp

/-- The catenary has unit speed, and its direction. -/
theorem catenary_deriv {k : ℝ} (hk : 0 < k) (s₁ x₁ y₁ δ σ s : ℝ) :
    HasDerivAt (fun s => (catenary k s₁ x₁ y₁ δ σ s).1) (δ * (k / √(k ^ 2 + (s - s₁) ^ 2))) s ∧
      HasDerivAt (fun s => (catenary k s₁ x₁ y₁ δ σ s).2) (σ * ((s - s₁) / √(k ^ 2 + (s - s₁) ^ 2))) s := by
  have hn : 0 < √(k ^ 2 + (s - s₁) ^ 2) := sqrt_pos.2 (by positivity)
  have d0 : HasDerivAt (fun s => (s - s₁) / k) (1 / k) s := ((hasDerivAt_id s).sub_const s₁).div_const k
  have d1 : HasDerivAt (fun s => arsinh ((s - s₁) / k)) (1 / √(k ^ 2 + (s - s₁) ^ 2)) s := by
    refine d0.arsinh.congr_deriv ?_
    rw [chain_norm hk, smul_eq_mul]
    field_simp
  constructor
  · refine (((d1.const_mul k).const_mul δ).const_add x₁).congr_deriv ?_
    ring
  · refine ((((d1.cosh).const_mul k).const_mul σ).const_add y₁).congr_deriv ?_
    rw [sinh_arsinh]
    field_simp

/-- The direction of a chain that satisfies the first-order conditions. -/
theorem direction_of_conditions {a b L c : ℝ} {θ : ℝ → ℝ} (hL : L ≠ 0) (hθ : ContinuousOn θ (Set.Icc a b))
    (st : ∀ t ∈ Set.Icc a b, -(L * sin (θ t)) + (c - t) * cos (θ t) = 0) :
    ∃ e : ℝ, (e = 1 ∨ e = -1) ∧ ∀ t ∈ Set.Icc a b, L * cos (θ t) + (c - t) * sin (θ t) = e * √(L ^ 2 + (c - t) ^ 2) ∧
      cos (θ t) = e * (L / √(L ^ 2 + (c - t) ^ 2)) ∧ sin (θ t) = e * ((c - t) / √(L ^ 2 + (c - t) ^ 2)) := by
  have pos : ∀ t, 0 < L ^ 2 + (c - t) ^ 2 := fun t => by
    have := sq_pos_of_ne_zero hL
    positivity
  have hn : ∀ t, 0 < √(L ^ 2 + (c - t) ^ 2) := fun t => sqrt_pos.2 (pos t)
  have hsq : ∀ t ∈ Set.Icc a b, (L * cos (θ t) + (c - t) * sin (θ t)) ^ 2 = √(L ^ 2 + (c - t) ^ 2) ^ 2 := by
    intro t ht
    rw [sq_sqrt (pos t).le]
    have h1 := st t ht
    have h2 := sin_sq_add_cos_sq (θ t)
    linear_combination (L ^ 2 + (c - t) ^ 2) * h2 + (L * sin (θ t) - (c - t) * cos (θ t)) * h1
  have key : ∃ e : ℝ, (e = 1 ∨ e = -1) ∧ ∀ t ∈ Set.Icc a b, L * cos (θ t) + (c - t) * sin (θ t) = e * √(L ^ 2 + (c - t) ^ 2) := by
    have cf : ContinuousOn (fun t => L * cos (θ t) + (c - t) * sin (θ t)) (Set.Icc a b) :=
      (continuousOn_const.mul (continuous_cos.comp_continuousOn hθ)).add
        ((continuousOn_const.sub continuousOn_id).mul (continuous_sin.comp_continuousOn hθ))
    have cg : ContinuousOn (fun t => √(L ^ 2 + (c - t) ^ 2)) (Set.Icc a b) := by fun_prop
    rcases isPreconnected_Icc.eq_or_eq_neg_of_sq_eq cf cg (fun t ht => by simpa using hsq t ht) (fun {t} _ => (hn t).ne') with h | h
    · exact ⟨1, Or.inl rfl, fun t ht => by simpa using h ht⟩
    · exact ⟨-1, Or.inr rfl, fun t ht => by simpa using h ht⟩
  obtain ⟨e, he, h⟩ := key
  refine ⟨e, he, fun t ht => ⟨h t ht, ?_, ?_⟩⟩
  · have h1 := st t ht
    have h2 := h t ht
    have h3 := sq_sqrt (pos t).le
    have h4 := hn t
    generalize √(L ^ 2 + (c - t) ^ 2) = n at *
    rw [← mul_div_assoc, eq_div_iff h4.ne']
    refine mul_right_cancel₀ h4.ne' ?_
    linear_combination (cos (θ t)) * h3 + L * h2 + (c - t) * h1
  · have h1 := st t ht
    have h2 := h t ht
    have h3 := sq_sqrt (pos t).le
    have h4 := hn t
    generalize √(L ^ 2 + (c - t) ^ 2) = n at *
    rw [← mul_div_assoc, eq_div_iff h4.ne']
    refine mul_right_cancel₀ h4.ne' ?_
    linear_combination (sin (θ t)) * h3 + (c - t) * h2 - L * h1

/-- The first-order conditions of the problem of the hanging chain: the costate of `x` does not vanish, if the ends are not one above
the other. -/
theorem costate_ne {a b L c : ℝ} (hab : a < b) {x θ : ℝ → ℝ} (hx : ∀ t ∈ Set.Icc a b, HasDerivAt x (cos (θ t)) t)
    (hθ : ContinuousOn θ (Set.Icc a b)) (st : ∀ t ∈ Set.Icc a b, -(L * sin (θ t)) + (c - t) * cos (θ t) = 0) (hne : x a ≠ x b) :
    L ≠ 0 := by
  rintro rfl
  have off : ∀ t ∈ Set.Icc a b, t ≠ c → cos (θ t) = 0 := by
    intro t ht hc
    have := st t ht
    rw [zero_mul, neg_zero, zero_add] at this
    exact (mul_eq_zero.1 this).resolve_left (sub_ne_zero.2 (Ne.symm hc))
  have all : ∀ t ∈ Set.Icc a b, cos (θ t) = 0 := by
    have k : Set.EqOn (fun t => cos (θ t)) (fun _ => 0) (Set.Icc a b) := by
      refine Set.EqOn.of_subset_closure (s := Set.Ioo a b \ {c}) (fun t ht => off t ⟨ht.1.1.le, ht.1.2.le⟩ ht.2)
        (continuous_cos.comp_continuousOn hθ) continuousOn_const (fun t ht => ⟨ht.1.1.le, ht.1.2.le⟩) ?_
      have hd : Dense ({c}ᶜ : Set ℝ) := dense_compl_singleton c
      have ho : Set.Ioo a b ⊆ closure (Set.Ioo a b ∩ {c}ᶜ) := hd.open_subset_closure_inter isOpen_Ioo
      have hc := closure_minimal ho isClosed_closure
      rwa [closure_Ioo hab.ne] at hc
    exact k
  exact hne (const_on (fun t ht => by rw [← all t ht]; exact hx t ht) b ⟨hab.le, le_refl _⟩).symm

/-- Curves that satisfy the first-order conditions of the problem of the hanging chain are catenaries. -/
theorem catenary_of_conditions {a b L c e : ℝ} {x y θ : ℝ → ℝ} (hx : ∀ t ∈ Set.Icc a b, HasDerivAt x (cos (θ t)) t)
    (hy : ∀ t ∈ Set.Icc a b, HasDerivAt y (sin (θ t)) t) (hL : L ≠ 0)
    (h : ∀ t ∈ Set.Icc a b, cos (θ t) = e * (L / √(L ^ 2 + (c - t) ^ 2)) ∧ sin (θ t) = e * ((c - t) / √(L ^ 2 + (c - t) ^ 2))) :
    ∃ x₁ y₁, ∀ t ∈ Set.Icc a b, (x t, y t) = catenary |L| c x₁ y₁ (e * (L / |L|)) (-e) t := by
  have hk : 0 < |L| := abs_pos.2 hL
  refine ⟨x a - (catenary |L| c 0 0 (e * (L / |L|)) (-e) a).1, y a - (catenary |L| c 0 0 (e * (L / |L|)) (-e) a).2, ?_⟩
  intro t ht
  have dx : ∀ t ∈ Set.Icc a b, HasDerivAt (fun s => x s - (catenary |L| c 0 0 (e * (L / |L|)) (-e) s).1) 0 t := by
    intro t ht
    refine ((hx t ht).sub (catenary_deriv hk c 0 0 _ _ t).1).congr_deriv ?_
    rw [(h t ht).1, sq_abs, show (t - c) ^ 2 = (c - t) ^ 2 by ring]
    have := hk.ne'
    field_simp
    ring
  have dy : ∀ t ∈ Set.Icc a b, HasDerivAt (fun s => y s - (catenary |L| c 0 0 (e * (L / |L|)) (-e) s).2) 0 t := by
    intro t ht
    refine ((hy t ht).sub (catenary_deriv hk c 0 0 _ _ t).2).congr_deriv ?_
    rw [(h t ht).2, sq_abs, show (t - c) ^ 2 = (c - t) ^ 2 by ring]
    ring
  have ex := const_on dx t ht
  have ey := const_on dy t ht
  simp only [catenary, zero_add] at ex ey ⊢
  rw [Prod.mk.injEq]
  exact ⟨by linarith, by linarith⟩

/-- A chain whose direction makes the Hamiltonian least everywhere hangs lowest of all chains with the same ends. -/
theorem lowest_of_least {l L c x0 y0 x1 y1 : ℝ} (hl : 0 < l) {x y θ X Y Θ : ℝ → ℝ} (h : Chained l x0 y0 x1 y1 x y θ)
    (H : Chained l x0 y0 x1 y1 X Y Θ)
    (hle : ∀ s ∈ Set.Ioo 0 l, L * cos (θ s) + (c - s) * sin (θ s) ≤ L * cos (Θ s) + (c - s) * sin (Θ s)) :
    height l y ≤ height l Y ∧ (height l Y = height l y →
      ∀ s ∈ Set.Ioo 0 l, L * cos (θ s) + (c - s) * sin (θ s) = L * cos (Θ s) + (c - s) * sin (Θ s)) := by
  have cY := H.continuous.2
  have cy := h.continuous.2
  have iY : IntervalIntegrable Y MeasureTheory.volume 0 l := cY.intervalIntegrable_of_Icc hl.le
  have iy : IntervalIntegrable y MeasureTheory.volume 0 l := cy.intervalIntegrable_of_Icc hl.le
  have iD : IntervalIntegrable (fun s => Y s - y s) MeasureTheory.volume 0 l := iY.sub iy
  let F : ℝ → ℝ := fun s => (∫ r in (0 : ℝ)..s, Y r - y r) + (L * (X s - x s) + (c - s) * (Y s - y s))
  have cF : ContinuousOn F (Set.Icc 0 l) := by
    refine ContinuousOn.add ?_ ((continuousOn_const.mul (H.continuous.1.sub h.continuous.1)).add
      ((continuousOn_const.sub continuousOn_id).mul (cY.sub cy)))
    have := intervalIntegral.continuousOn_primitive_interval' iD (Set.left_mem_uIcc)
    rwa [Set.uIcc_of_le hl.le] at this
  have dF : ∀ s ∈ Set.Ioo 0 l, HasDerivAt F (L * (cos (Θ s) - cos (θ s)) + (c - s) * (sin (Θ s) - sin (θ s))) s := by
    intro s hs
    have hn : Set.Icc 0 l ∈ nhds s := Icc_mem_nhds hs.1 hs.2
    have k1 : HasDerivAt (fun s => ∫ r in (0 : ℝ)..s, Y r - y r) (Y s - y s) s := by
      refine intervalIntegral.integral_hasDerivAt_right ?_ ?_ ((cY.sub cy).continuousAt hn)
      · refine iD.mono_set ?_
        rw [Set.uIcc_of_le hs.1.le, Set.uIcc_of_le hl.le]
        exact Set.Icc_subset_Icc_right hs.2.le
      · exact (cY.sub cy).stronglyMeasurableAtFilter_nhdsWithin measurableSet_Icc s |>.filter_mono (by
          rw [nhdsWithin_eq_nhds.2 hn])
    obtain ⟨d1, d2⟩ := H.direction s hs
    obtain ⟨d3, d4⟩ := h.direction s hs
    have k2 : HasDerivAt (fun s => c - s) (-1) s := by simpa using (hasDerivAt_id s).const_sub c
    refine (k1.add (((d1.sub d3).const_mul L).add (k2.mul (d2.sub d4)))).congr_deriv ?_
    rw [Pi.sub_apply]
    ring
  have mono : MonotoneOn F (Set.Icc 0 l) := by
    refine monotoneOn_of_deriv_nonneg (convex_Icc 0 l) cF ?_ ?_
    · rw [interior_Icc]
      exact fun s hs => (dF s hs).differentiableAt.differentiableWithinAt
    · rw [interior_Icc]
      intro s hs
      rw [(dF s hs).deriv]
      linarith [hle s hs]
  have e0 : F 0 = 0 := by
    simp only [F, intervalIntegral.integral_same, h.start.1, h.start.2, H.start.1, H.start.2, sub_self, mul_zero, add_zero]
  have e1 : F l = height l Y - height l y := by
    simp only [F, h.stop.1, h.stop.2, H.stop.1, H.stop.2, sub_self, mul_zero, add_zero]
    rw [intervalIntegral.integral_sub iY iy, height, height]
  have m := mono ⟨le_refl _, hl.le⟩ ⟨hl.le, le_refl _⟩ hl.le
  rw [e0, e1] at m
  refine ⟨by linarith, fun he s hs => ?_⟩
  have z : ∀ r ∈ Set.Icc 0 l, F r = 0 := by
    intro r hr
    have m1 := mono ⟨le_refl _, hl.le⟩ hr hr.1
    have m2 := mono hr ⟨hl.le, le_refl _⟩ hr.2
    rw [e0] at m1
    rw [e1, he, sub_self] at m2
    linarith
  have ev : F =ᶠ[nhds s] fun _ => 0 := Filter.eventually_of_mem (Icc_mem_nhds hs.1 hs.2) z
  have := (dF s hs).unique ((hasDerivAt_const s (0 : ℝ)).congr_of_eventuallyEq ev)
  linarith

/-- No direction makes the Hamiltonian less than minus its norm. -/
theorem norm_least (L w φ : ℝ) : -√(L ^ 2 + w ^ 2) ≤ L * cos φ + w * sin φ ∧ L * cos φ + w * sin φ ≤ √(L ^ 2 + w ^ 2) := by
  rw [← abs_le]
  refine abs_le_sqrt ?_
  have := sin_sq_add_cos_sq φ
  nlinarith [sq_nonneg (L * sin φ - w * cos φ)]

/-- Only one direction makes the Hamiltonian as little, or as large, as possible. -/
theorem direction_unique {L w φ ψ e : ℝ} (hL : L ≠ 0) (he : e = 1 ∨ e = -1) (h1 : L * cos φ + w * sin φ = e * √(L ^ 2 + w ^ 2))
    (h2 : L * cos φ + w * sin φ = L * cos ψ + w * sin ψ) : cos ψ = cos φ ∧ sin ψ = sin φ := by
  have pos : 0 < L ^ 2 + w ^ 2 := by
    have := sq_pos_of_ne_zero hL
    positivity
  have he2 : e ^ 2 = 1 := by rcases he with rfl | rfl <;> norm_num
  have hs : √(L ^ 2 + w ^ 2) ^ 2 = L ^ 2 + w ^ 2 := sq_sqrt pos.le
  have hq : (L * cos φ + w * sin φ) ^ 2 = L ^ 2 + w ^ 2 := by
    rw [h1, mul_pow, he2, hs, one_mul]
  have z1 : L * sin φ - w * cos φ = 0 := by
    have := sin_sq_add_cos_sq φ
    have : (L * sin φ - w * cos φ) ^ 2 = 0 := by linear_combination (L ^ 2 + w ^ 2) * this - hq
    exact pow_eq_zero_iff (two_ne_zero) |>.1 this
  have hq2 := hq
  rw [h2] at hq2
  have z2 : L * sin ψ - w * cos ψ = 0 := by
    have := sin_sq_add_cos_sq ψ
    have : (L * sin ψ - w * cos ψ) ^ 2 = 0 := by linear_combination (L ^ 2 + w ^ 2) * this - hq2
    exact pow_eq_zero_iff (two_ne_zero) |>.1 this
  constructor
  · refine mul_left_cancel₀ pos.ne' ?_
    linear_combination (-L) * h2 + w * z1 - w * z2
  · refine mul_left_cancel₀ pos.ne' ?_
    linear_combination (-w) * h2 - L * z1 + L * z2

/-- Chains from the same point with the same directions are the same. -/
theorem chained_unique {l x0 y0 x1 y1 : ℝ} (hl : 0 < l) {x y θ X Y Θ : ℝ → ℝ} (h : Chained l x0 y0 x1 y1 x y θ)
    (H : Chained l x0 y0 x1 y1 X Y Θ) (he : ∀ s ∈ Set.Ioo 0 l, cos (Θ s) = cos (θ s) ∧ sin (Θ s) = sin (θ s)) :
    ∀ s ∈ Set.Icc 0 l, X s = x s ∧ Y s = y s := by
  have key : ∀ {f g f' g' : ℝ → ℝ}, ContinuousOn f (Set.Icc 0 l) → ContinuousOn g (Set.Icc 0 l) →
      (∀ s ∈ Set.Ioo 0 l, HasDerivAt f (f' s) s) → (∀ s ∈ Set.Ioo 0 l, HasDerivAt g (g' s) s) → (∀ s ∈ Set.Ioo 0 l, f' s = g' s) →
      f 0 = g 0 → ∀ s ∈ Set.Icc 0 l, f s = g s := by
    intro f g f' g' cf cg df dg hfg e0 s hs
    have m : ∀ s ∈ Set.Icc 0 l, f s - g s = f 0 - g 0 := by
      intro s hs
      rcases eq_or_lt_of_le hs.1 with e | e
      · rw [← e]
      · obtain ⟨r, hr, hd⟩ := exists_hasDerivAt_eq_slope (fun s => f s - g s) (fun s => f' s - g' s) e
          ((cf.sub cg).mono (Set.Icc_subset_Icc_right hs.2)) (fun r hr => (df r ⟨hr.1, hr.2.trans_le hs.2⟩).sub
            (dg r ⟨hr.1, hr.2.trans_le hs.2⟩))
        rw [hfg r ⟨hr.1, hr.2.trans_le hs.2⟩, sub_self, eq_comm, div_eq_zero_iff] at hd
        rcases hd with hd | hd <;> linarith
    have := m s hs
    rw [e0, sub_self] at this
    linarith
  intro s hs
  exact ⟨key H.continuous.1 h.continuous.1 (fun s hs => (H.direction s hs).1) (fun s hs => (h.direction s hs).1) (fun s hs => (he s hs).1)
    (by rw [H.start.1, h.start.1]) s hs, key H.continuous.2 h.continuous.2 (fun s hs => (H.direction s hs).2)
    (fun s hs => (h.direction s hs).2) (fun s hs => (he s hs).2) (by rw [H.start.2, h.start.2]) s hs⟩

/-- A chain in the directions of least Hamiltonian is the only lowest one. -/
theorem lowest_of_norm {l L c x0 y0 x1 y1 : ℝ} (hl : 0 < l) (hL : L ≠ 0) {x y θ : ℝ → ℝ} (h : Chained l x0 y0 x1 y1 x y θ)
    (hn : ∀ s ∈ Set.Ioo 0 l, L * cos (θ s) + (c - s) * sin (θ s) = -1 * √(L ^ 2 + (c - s) ^ 2)) : Lowest l x0 y0 x1 y1 x y := by
  intro X Y Θ H
  obtain ⟨k1, k2⟩ := lowest_of_least (L := L) (c := c) hl h H fun s hs => by
    rw [hn s hs, neg_one_mul]
    exact (norm_least _ _ _).1
  exact ⟨k1, fun he => chained_unique hl h H fun s hs => direction_unique hL (Or.inr rfl) (hn s hs) (k2 he s hs)⟩

/-- A chain in the directions of greatest Hamiltonian is the only highest one. -/
theorem highest_of_norm {l L c x0 y0 x1 y1 : ℝ} (hl : 0 < l) (hL : L ≠ 0) {x y θ : ℝ → ℝ} (h : Chained l x0 y0 x1 y1 x y θ)
    (hn : ∀ s ∈ Set.Ioo 0 l, L * cos (θ s) + (c - s) * sin (θ s) = 1 * √(L ^ 2 + (c - s) ^ 2)) : Highest l x0 y0 x1 y1 x y := by
  intro X Y Θ H
  obtain ⟨k1, k2⟩ := lowest_of_least (L := L) (c := c) hl H h fun s hs => by
    rw [hn s hs, one_mul]
    exact (norm_least _ _ _).2
  exact ⟨k1, fun he => chained_unique hl h H fun s hs => direction_unique hL (Or.inl rfl) (hn s hs) (k2 he.symm s hs).symm⟩

end Beluga.E2E
