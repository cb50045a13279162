import Verif.EndToEnd.AlyFlow

/-!
# The Aly-Chan example: the continuation approaches the least cost (C101)

`C101_returned` compares with motions whose control keeps away from the bounds.  Every other motion is close to one of these, so for small
activators the returned motions cost hardly more than any motion at all, in particular those whose control jumps between the bounds.
-/

namespace Beluga.E2E

open Beluga.Sym Beluga.Sym.Expr Beluga.Num Beluga.Map Beluga.Opt Beluga.Rep

/-! ### Lemmas -/

/-- A motion with a slightly weaker control costs only slightly more. -/
theorem Maneuvers.nearly {x₀ v₀ c₀ N T : ℝ} (hT : 0 < T) {Y Z E w : ℝ → ℝ} (h : Maneuvers x₀ v₀ c₀ N T Y Z E w) : ∃ κ, 0 ≤ κ ∧
    ∀ μ, 0 < μ → μ ≤ 1 / 2 → ∃ Y' Z' E' w', Maneuvers x₀ v₀ c₀ N T Y' Z' E' w' ∧ (∀ t ∈ Set.Ioo 0 T, |w' t| ≤ (1 - 2 * μ) * N) ∧
      E' T ≤ E T + κ * μ := by
  obtain ⟨hY, hZ, hE⟩ := h.continuous
  obtain ⟨K, hK⟩ := isCompact_Icc.exists_bound_of_continuousOn hY
  obtain ⟨L, hL⟩ := isCompact_Icc.exists_bound_of_continuousOn hZ
  have K0 : 0 ≤ K := (norm_nonneg _).trans (hK 0 ⟨le_refl _, hT.le⟩)
  have L0 : 0 ≤ L := (norm_nonneg _).trans (hL 0 ⟨le_refl _, hT.le⟩)
  have inn : ∀ t ∈ Set.Ioo 0 T, t ∈ Set.Icc 0 T := fun t ht => ⟨ht.1.le, ht.2.le⟩
  refine ⟨T * (2 * (|v₀| + L) ^ 2 + 2 * (|x₀| + |v₀| * T + K) ^ 2), by positivity, fun μ hμ h1 => ?_⟩
  obtain ⟨P, hP⟩ : ∃ P : ℝ → ℝ, P = fun t => 2 * μ * (x₀ + v₀ * t) + (1 - 2 * μ) * Y t := ⟨_, rfl⟩
  obtain ⟨Q, hQ⟩ : ∃ Q : ℝ → ℝ, Q = fun t => 2 * μ * v₀ + (1 - 2 * μ) * Z t := ⟨_, rfl⟩
  have cP : ContinuousOn P (Set.Icc 0 T) := by
    rw [hP]
    exact (Continuous.continuousOn (by fun_prop)).add (continuousOn_const.mul hY)
  have cQ : ContinuousOn Q (Set.Icc 0 T) := by
    rw [hQ]
    exact continuousOn_const.add (continuousOn_const.mul hZ)
  have hh : ∀ {f : ℝ → ℝ}, ContinuousOn f (Set.Icc 0 T) → Continuous fun t => f (held T t) := fun hf =>
    hf.comp_continuous (held_continuous T) fun t => held_mem hT.le t
  have cR : Continuous fun t => (Q (held T t) ^ 2 - P (held T t) ^ 2) / 2 := (((hh cQ).pow 2).sub ((hh cP).pow 2)).div_const 2
  obtain ⟨R, hR⟩ : ∃ R : ℝ → ℝ, R = prim 0 c₀ fun t => (Q (held T t) ^ 2 - P (held T t) ^ 2) / 2 := ⟨_, rfl⟩
  have dR : ∀ t ∈ Set.Ioo 0 T, HasDerivWithinAt R ((Q t ^ 2 - P t ^ 2) / 2) (Set.Ioi t) t := by
    intro t ht
    have k := prim_deriv 0 c₀ cR t
    rw [held_eq (inn t ht), ← hR] at k
    exact k.hasDerivWithinAt
  have conR : ContinuousOn R (Set.Icc 0 T) := by
    rw [hR]
    exact (prim_continuous _ _ cR).continuousOn
  have R0 : R 0 = c₀ := by
    rw [hR]
    exact prim_self _ _ _
  have r0 : 0 ≤ 1 - 2 * μ := by linarith
  have wb : ∀ t ∈ Set.Ioo 0 T, |(1 - 2 * μ) * w t| ≤ (1 - 2 * μ) * N := by
    intro t ht
    rw [abs_mul, abs_of_nonneg r0]
    exact mul_le_mul_of_nonneg_left (abs_le.2 (h.bounds t ht)) r0
  refine ⟨P, Q, R, fun t => (1 - 2 * μ) * w t, ⟨⟨?_, ?_, R0⟩, ⟨cP, cQ, conR⟩, ?_, ?_, dR, ?_⟩, wb, ?_⟩
  · simp only [hP, h.start.1]
    ring
  · simp only [hQ, h.start.2.1]
    ring
  · intro t ht
    rw [hP, hQ]
    exact (((((hasDerivAt_id t).const_mul v₀).const_add x₀).const_mul (2 * μ)).hasDerivWithinAt.add
      ((h.place t ht).const_mul (1 - 2 * μ))).congr_deriv (by ring)
  · intro t ht
    rw [hQ]
    exact ((h.velocity t ht).const_mul (1 - 2 * μ)).const_add _
  · intro t ht
    have k := abs_le.1 (wb t ht)
    have n1 : 0 ≤ N := by linarith [(h.bounds t ht).1, (h.bounds t ht).2]
    have k2 : (1 - 2 * μ) * N ≤ N := by nlinarith
    exact ⟨by linarith [k.1], by linarith [k.2]⟩
  · have k := intervalIntegral.sub_le_integral_of_hasDeriv_right_of_le
      (φ := fun _ => μ * (2 * (|v₀| + L) ^ 2 + 2 * (|x₀| + |v₀| * T + K) ^ 2)) hT.le (g := fun t => R t - E t) (conR.sub hE)
      (fun t ht => (dR t ht).sub (h.cost t ht)) (MeasureTheory.integrableOn_const (by simp)) (by
        intro t ht
        have a1 : |Z t| ≤ L := hL t (inn t ht)
        have a2 : |Y t| ≤ K := hK t (inn t ht)
        have a3 : |v₀ * t| ≤ |v₀| * T := by
          rw [abs_mul, abs_of_pos ht.1]
          exact mul_le_mul_of_nonneg_left ht.2.le (abs_nonneg _)
        have part : ∀ a b A B : ℝ, |a| ≤ A → |b| ≤ B → |(2 * μ * a + (1 - 2 * μ) * b) ^ 2 - b ^ 2| ≤ 2 * μ * (2 * (A + B) ^ 2) := by
          intro a b A B ha hb
          have e1 : (2 * μ * a + (1 - 2 * μ) * b) ^ 2 - b ^ 2 = (2 * μ) * ((a - b) * (2 * μ * a + (2 - 2 * μ) * b)) := by ring
          have ha' := abs_le.1 ha
          have hb' := abs_le.1 hb
          have A0 : 0 ≤ A := (abs_nonneg _).trans ha
          have B0 : 0 ≤ B := (abs_nonneg _).trans hb
          have p1 : |a - b| ≤ A + B := abs_le.2 ⟨by linarith [ha'.1, hb'.2], by linarith [ha'.2, hb'.1]⟩
          have p2 : |2 * μ * a + (2 - 2 * μ) * b| ≤ 2 * (A + B) := by
            calc _ ≤ |2 * μ * a| + |(2 - 2 * μ) * b| := abs_add_le _ _
              _ = 2 * μ * |a| + (2 - 2 * μ) * |b| := by
                rw [abs_mul (2 * μ), abs_mul (2 - 2 * μ), abs_of_nonneg (by linarith : 0 ≤ 2 * μ), abs_of_nonneg (by linarith : 0 ≤ 2 - 2 * μ)]
              _ ≤ 2 * (A + B) := by nlinarith [abs_nonneg a, abs_nonneg b]
          rw [e1, abs_mul, abs_of_nonneg (by linarith : 0 ≤ 2 * μ), abs_mul]
          refine mul_le_mul_of_nonneg_left ?_ (by linarith)
          calc |a - b| * |2 * μ * a + (2 - 2 * μ) * b| ≤ (A + B) * (2 * (A + B)) := mul_le_mul p1 p2 (abs_nonneg _) (by linarith)
            _ = 2 * (A + B) ^ 2 := by ring
        have b1 := abs_le.1 (part v₀ (Z t) _ _ (le_refl _) a1)
        have b2 := abs_le.1 (part (x₀ + v₀ * t) (Y t) (|x₀| + |v₀| * T) _ ((abs_add_le _ _).trans (by linarith)) a2)
        simp only [hP, hQ]
        linarith [b1.2, b2.1])
    rw [intervalIntegral.integral_const, smul_eq_mul, sub_zero, R0, h.start.2.2] at k
    linarith

/-- The mean of two motions. -/
theorem Maneuvers.mean {x₀ v₀ c₀ N T : ℝ} (hT : 0 < T) {X V C W Y Z E w : ℝ → ℝ} (h : Maneuvers x₀ v₀ c₀ N T X V C W)
    (k : Maneuvers x₀ v₀ c₀ N T Y Z E w) :
    ∃ D, Maneuvers x₀ v₀ c₀ N T (fun t => (X t + Y t) / 2) (fun t => (V t + Z t) / 2) D (fun t => (W t + w t) / 2) := by
  obtain ⟨hX, hV, -⟩ := h.continuous
  obtain ⟨hY, hZ, -⟩ := k.continuous
  have hh : ∀ {f : ℝ → ℝ}, ContinuousOn f (Set.Icc 0 T) → Continuous fun t => f (held T t) := fun hf =>
    hf.comp_continuous (held_continuous T) fun t => held_mem hT.le t
  have cP := (hX.add hY).div_const 2
  have cQ := (hV.add hZ).div_const 2
  have cR : Continuous fun t => (((V (held T t) + Z (held T t)) / 2) ^ 2 - ((X (held T t) + Y (held T t)) / 2) ^ 2) / 2 :=
    (((hh cQ).pow 2).sub ((hh cP).pow 2)).div_const 2
  refine ⟨prim 0 c₀ fun t => (((V (held T t) + Z (held T t)) / 2) ^ 2 - ((X (held T t) + Y (held T t)) / 2) ^ 2) / 2,
    ⟨?_, ?_, prim_self _ _ _⟩, ⟨cP, cQ, (prim_continuous _ _ cR).continuousOn⟩, fun t ht => ((h.place t ht).add (k.place t ht)).div_const 2,
    fun t ht => ((h.velocity t ht).add (k.velocity t ht)).div_const 2, fun t ht => ?_, fun t ht => ?_⟩
  · rw [h.start.1, k.start.1]
    ring
  · rw [h.start.2.1, k.start.2.1]
    ring
  · have q := prim_deriv 0 c₀ cR t
    rw [held_eq ⟨ht.1.le, ht.2.le⟩] at q
    exact q.hasDerivWithinAt
  · have a := h.bounds t ht
    have b := k.bounds t ht
    constructor <;> linarith

/-- A motion that costs hardly more than the cheapest one is close to it. -/
theorem Maneuvers.close {x₀ v₀ c₀ N T : ℝ} (hT : 0 < T) (hp : T < Real.pi / 2) {X V C W Y Z E w : ℝ → ℝ} (h : Maneuvers x₀ v₀ c₀ N T X V C W)
    (k : Maneuvers x₀ v₀ c₀ N T Y Z E w) (best : ∀ Y' Z' E' w', Maneuvers x₀ v₀ c₀ N T Y' Z' E' w' → E T ≤ E' T) {δ η : ℝ} (hη : 0 < η)
    (hd : C T ≤ E T + δ) : ∀ t ∈ Set.Icc 0 T, |X t - Y t| ≤ 1 / Real.cos T * (2 * δ / η + η * T / 2) := by
  obtain ⟨D, hD⟩ := h.mean hT k
  obtain ⟨cX, cV, cC⟩ := h.continuous
  obtain ⟨cY, cZ, cE⟩ := k.continuous
  obtain ⟨-, -, cD⟩ := hD.continuous
  have inn : ∀ t ∈ Set.Ioo 0 T, t ∈ Set.Icc 0 T := fun t ht => ⟨ht.1.le, ht.2.le⟩
  have cosT : 0 < Real.cos T := Real.cos_pos_of_mem_Ioo ⟨by linarith [Real.pi_pos], hp⟩
  have cpos : ∀ t ∈ Set.Icc 0 T, 0 < Real.cos (T - t) := fun t ht =>
    Real.cos_pos_of_mem_Ioo ⟨by linarith [Real.pi_pos, ht.2], by linarith [ht.1]⟩
  have cle : ∀ t ∈ Set.Icc 0 T, Real.cos T ≤ Real.cos (T - t) := fun t ht =>
    Real.cos_le_cos_of_nonneg_of_le_pi (by linarith [ht.2]) (by linarith [Real.pi_pos]) (by linarith [ht.1])
  obtain ⟨F, hF⟩ : ∃ F : ℝ → ℝ, F = fun t => (C t + E t) / 2 - D t - Real.tan (T - t) * (X t - Y t) ^ 2 / 8 := ⟨_, rfl⟩
  obtain ⟨r, hr⟩ : ∃ r : ℝ → ℝ, r = fun t => (V t - Z t) - Real.tan (T - t) * (X t - Y t) := ⟨_, rfl⟩
  obtain ⟨g, hg⟩ : ∃ g : ℝ → ℝ, g = fun t => (X t - Y t) / Real.cos (T - t) := ⟨_, rfl⟩
  have ct : ContinuousOn (fun t => Real.tan (T - t)) (Set.Icc 0 T) := fun t ht => (tan_rate hp ht).continuousAt.continuousWithinAt
  have cF : ContinuousOn F (Set.Icc 0 T) := by
    rw [hF]
    exact (((cC.add cE).div_const 2).sub cD).sub ((ct.mul ((cX.sub cY).pow 2)).div_const 8)
  have cg : ContinuousOn g (Set.Icc 0 T) := by
    rw [hg]
    exact (cX.sub cY).div (Continuous.continuousOn (by fun_prop)) fun t ht => (cpos t ht).ne'
  have dF : ∀ t ∈ Set.Ioo 0 T, HasDerivWithinAt F (r t ^ 2 / 8) (Set.Ioi t) t := by
    intro t ht
    rw [hF, hr]
    refine (((((h.cost t ht).add (k.cost t ht)).div_const 2).sub (hD.cost t ht)).sub (((tan_rate hp (inn t ht)).hasDerivWithinAt.mul
      (((h.place t ht).sub (k.place t ht)).pow 2)).div_const 8)).congr_deriv ?_
    simp only [Pi.sub_apply, Pi.pow_apply]
    norm_num
    ring
  have dg : ∀ t ∈ Set.Ioo 0 T, HasDerivWithinAt g (r t / Real.cos (T - t)) (Set.Ioi t) t := by
    intro t ht
    have hc := (cpos t (inn t ht)).ne'
    rw [hg, hr]
    refine (((h.place t ht).sub (k.place t ht)).div (((hasDerivAt_id t).const_sub T).cos).hasDerivWithinAt hc).congr_deriv ?_
    simp only [id, Pi.sub_apply, Real.tan_eq_sin_div_cos]
    field_simp
  have F0 : F 0 = 0 := by
    simp only [hF, h.start.1, k.start.1, h.start.2.2, k.start.2.2, hD.start.2.2]
    ring
  have g0 : g 0 = 0 := by simp [hg, h.start.1, k.start.1]
  have FT : F T ≤ δ / 2 := by
    have := best _ _ _ _ hD
    simp only [hF, sub_self, Real.tan_zero, zero_mul, zero_div, sub_zero]
    linarith
  have Fle : ∀ t ∈ Set.Icc 0 T, F t ≤ δ / 2 := by
    intro t ht
    have q := intervalIntegral.sub_le_integral_of_hasDeriv_right_of_le (φ := fun _ => (0 : ℝ)) ht.2 (g := fun t => -F t)
      (cF.neg.mono (Set.Icc_subset_Icc_left ht.1)) (fun s hs => (dF s ⟨lt_of_le_of_lt ht.1 hs.1, hs.2⟩).neg)
      MeasureTheory.integrableOn_zero (fun s _ => by linarith [sq_nonneg (r s)])
    rw [intervalIntegral.integral_zero] at q
    linarith
  have young : ∀ s ∈ Set.Ioo 0 T, |r s / Real.cos (T - s)| ≤ 1 / Real.cos T * (4 / η * (r s ^ 2 / 8) + η / 2 * 1) := by
    intro s hs
    have a1 : |r s| ≤ 4 / η * (r s ^ 2 / 8) + η / 2 * 1 := by
      have : 4 / η * (r s ^ 2 / 8) + η / 2 * 1 - |r s| = (|r s| - η) ^ 2 / (2 * η) := by
        rw [← sq_abs (r s)]
        field_simp
        ring
      have : 0 ≤ (|r s| - η) ^ 2 / (2 * η) := by positivity
      linarith
    have c0 := cpos s (inn s hs)
    rw [abs_div, abs_of_pos c0, div_eq_inv_mul, one_div]
    exact mul_le_mul ((inv_le_inv₀ c0 cosT).2 (cle s (inn s hs))) a1 (abs_nonneg _) (by positivity)
  intro t ht
  have cB : ContinuousOn (fun t => 1 / Real.cos T * (4 / η * F t + η / 2 * t)) (Set.Icc 0 T) :=
    continuousOn_const.mul ((continuousOn_const.mul cF).add (continuousOn_const.mul continuousOn_id))
  have dB : ∀ t ∈ Set.Ioo 0 T, HasDerivWithinAt (fun t => 1 / Real.cos T * (4 / η * F t + η / 2 * t))
      (1 / Real.cos T * (4 / η * (r t ^ 2 / 8) + η / 2 * 1)) (Set.Ioi t) t := fun t ht =>
    (((dF t ht).const_mul _).add ((hasDerivAt_id t).hasDerivWithinAt.const_mul _)).const_mul _
  have sub : Set.Icc 0 t ⊆ Set.Icc 0 T := Set.Icc_subset_Icc_right ht.2
  have up := intervalIntegral.sub_le_integral_of_hasDeriv_right_of_le (φ := fun _ => (0 : ℝ)) ht.1
    (g := fun t => g t - 1 / Real.cos T * (4 / η * F t + η / 2 * t)) ((cg.sub cB).mono sub)
    (fun s hs => (dg s ⟨hs.1, lt_of_lt_of_le hs.2 ht.2⟩).sub (dB s ⟨hs.1, lt_of_lt_of_le hs.2 ht.2⟩))
    MeasureTheory.integrableOn_zero (fun s hs => by linarith [(abs_le.1 (young s ⟨hs.1, lt_of_lt_of_le hs.2 ht.2⟩)).2])
  have dn := intervalIntegral.sub_le_integral_of_hasDeriv_right_of_le (φ := fun _ => (0 : ℝ)) ht.1
    (g := fun t => -g t - 1 / Real.cos T * (4 / η * F t + η / 2 * t)) ((cg.neg.sub cB).mono sub)
    (fun s hs => (dg s ⟨hs.1, lt_of_lt_of_le hs.2 ht.2⟩).neg.sub (dB s ⟨hs.1, lt_of_lt_of_le hs.2 ht.2⟩))
    MeasureTheory.integrableOn_zero (fun s hs => by linarith [(abs_le.1 (young s ⟨hs.1, lt_of_lt_of_le hs.2 ht.2⟩)).1])
  rw [intervalIntegral.integral_zero] at up dn
  simp only [g0, F0, mul_zero, add_zero, sub_zero, neg_zero] at up dn
  have bd : 1 / Real.cos T * (4 / η * F t + η / 2 * t) ≤ 1 / Real.cos T * (2 * δ / η + η * T / 2) := by
    refine mul_le_mul_of_nonneg_left ?_ (by positivity)
    have q1 := mul_le_mul_of_nonneg_left (Fle t ht) (by positivity : 0 ≤ 4 / η)
    have q2 := mul_le_mul_of_nonneg_left ht.2 (by positivity : 0 ≤ η / 2)
    have e1 : 4 / η * (δ / 2) = 2 * δ / η := by
      field_simp
      ring
    linarith
  have gb : |g t| ≤ 1 / Real.cos T * (2 * δ / η + η * T / 2) := abs_le.2 ⟨by linarith, by linarith⟩
  have e1 : X t - Y t = g t * Real.cos (T - t) := by
    simp only [hg]
    rw [div_mul_cancel₀ _ (cpos t ht).ne']
  rw [e1, abs_mul, abs_of_pos (cpos t ht)]
  exact (mul_le_of_le_one_right (abs_nonneg _) (Real.cos_le_one _)).trans gb

/-! ### Properties -/

/-- Whatever motion with a control within the bounds is compared, and however small an excess is allowed: all solutions of the Aly-Chan
example with a small enough activator, one of whose controls lies between the bounds, cost at most so much more. -/
theorem C101_limit {S : Sympy} (hL : LuSound S) {o : Opts} {p' : Prob} (hm : o.momentumShift = true) (hd : o.method ≠ .other)
    (hS : o.controlMethod = .algebraic → SolveSound S) (h : indirect S o alyChan = .ok p') {x₀ v₀ c₀ N : ℝ} (hN : 0 < N) {Y Z E w : ℝ → ℝ}
    (hY : Maneuvers x₀ v₀ c₀ N (3.1415 / 2) Y Z E w) {δ : ℝ} (hδ : 0 < δ) :
    ∃ q, primal S alyChan = .ok q ∧ ∃ e₀, 0 < e₀ ∧ ∀ U a b y pr k ρ s s', MappedBack S o alyChan p' q U a b y pr k ρ s s' →
      ∀ e, s'.const = [x₀, v₀, c₀, e, N] → 0 < e → e ≤ e₀ → (∀ n l, s'.u = .rows n l → ∃ row ∈ l, ∃ v ∈ row, |v| < N) →
      ∃ X V C W, Maneuvers x₀ v₀ c₀ N (3.1415 / 2) X V C W ∧ s'.t.getLast? = some (3.1415 / 2) ∧
        s'.y = .rows 3 (s'.t.map fun t => [X t, V t, C t]) ∧ s'.u = .rows 1 (s'.t.map fun t => [W t]) ∧
        C (3.1415 / 2) ≤ E (3.1415 / 2) + δ := by
  obtain ⟨q, hq, R⟩ := C101_returned hL hm hd hS h
  obtain ⟨κ, k0, near⟩ := hY.nearly (by norm_num)
  obtain ⟨μ, hμ⟩ : ∃ μ, μ = min (1 / 2) (δ / (2 * (κ + 1))) := ⟨_, rfl⟩
  have μ0 : 0 < μ := by
    rw [hμ]
    exact lt_min (by norm_num) (by positivity)
  have μ1 : μ ≤ 1 / 2 := by
    rw [hμ]
    exact min_le_left _ _
  have μ2 : κ * μ ≤ δ / 2 := by
    have : μ ≤ δ / (2 * (κ + 1)) := by
      rw [hμ]
      exact min_le_right _ _
    rw [le_div_iff₀ (by positivity)] at this
    nlinarith
  obtain ⟨Y', Z', E', w', n1, n2, n3⟩ := near μ μ0 μ1
  refine ⟨q, hq, μ * δ / 2, by positivity, ?_⟩
  intro U a b y pr k ρ s s' hr e hk he hle hin
  obtain ⟨X, V, C, W, r1, -, -, r4, r5, r6, r7⟩ := R U a b y pr k ρ s s' hr x₀ v₀ c₀ e N hk he hN hin
  refine ⟨X, V, C, W, r1, r4, r5, r6, (r7 Y' Z' E' w' μ μ0 n1 n2).trans ?_⟩
  have e1 : 3.1415 / 2 * (e / (2 * μ)) ≤ δ / 2 := by
    have : e / (2 * μ) ≤ δ / 4 := by
      rw [div_le_iff₀ (by positivity)]
      linarith
    linarith
  linarith

/-- If the cost has a least value within the bounds, the continuation converges to where it is attained: the places of all solutions of the
Aly-Chan example with a small enough activator, one of whose controls lies between the bounds, are as close to it as asked for at all times. -/
theorem C101_converges {S : Sympy} (hL : LuSound S) {o : Opts} {p' : Prob} (hm : o.momentumShift = true) (hd : o.method ≠ .other)
    (hS : o.controlMethod = .algebraic → SolveSound S) (h : indirect S o alyChan = .ok p') {x₀ v₀ c₀ N : ℝ} (hN : 0 < N) {Y Z E w : ℝ → ℝ}
    (hY : Maneuvers x₀ v₀ c₀ N (3.1415 / 2) Y Z E w)
    (best : ∀ Y' Z' E' w', Maneuvers x₀ v₀ c₀ N (3.1415 / 2) Y' Z' E' w' → E (3.1415 / 2) ≤ E' (3.1415 / 2)) {ε : ℝ} (hε : 0 < ε) :
    ∃ q, primal S alyChan = .ok q ∧ ∃ e₀, 0 < e₀ ∧ ∀ U a b y pr k ρ s s', MappedBack S o alyChan p' q U a b y pr k ρ s s' →
      ∀ e, s'.const = [x₀, v₀, c₀, e, N] → 0 < e → e ≤ e₀ → (∀ n l, s'.u = .rows n l → ∃ row ∈ l, ∃ v ∈ row, |v| < N) →
      ∃ X V C W, Maneuvers x₀ v₀ c₀ N (3.1415 / 2) X V C W ∧ s'.y = .rows 3 (s'.t.map fun t => [X t, V t, C t]) ∧
        s'.u = .rows 1 (s'.t.map fun t => [W t]) ∧ ∀ t ∈ Set.Icc 0 (3.1415 / 2), |X t - Y t| ≤ ε := by
  have hp : (3.1415 / 2 : ℝ) < Real.pi / 2 := by linarith [Real.pi_gt_d4]
  have cosT : 0 < Real.cos (3.1415 / 2) := Real.cos_pos_of_mem_Ioo ⟨by linarith [Real.pi_pos], hp⟩
  obtain ⟨η, hη⟩ : ∃ η, η = ε * Real.cos (3.1415 / 2) / 2 := ⟨_, rfl⟩
  have η0 : 0 < η := by
    rw [hη]
    positivity
  obtain ⟨q, hq, e₀, he₀, key⟩ := C101_limit hL hm hd hS h hN hY (δ := η * η / 4) (by positivity)
  refine ⟨q, hq, e₀, he₀, ?_⟩
  intro U a b y pr k ρ s s' hr e hk he hle hin
  obtain ⟨X, V, C, W, r1, -, r3, r4, r5⟩ := key U a b y pr k ρ s s' hr e hk he hle hin
  refine ⟨X, V, C, W, r1, r3, r4, fun t ht => (r1.close (by norm_num) hp hY best η0 r5 t ht).trans ?_⟩
  rw [one_div, ← div_eq_inv_mul, div_le_iff₀ cosT]
  have e1 : 2 * (η * η / 4) / η = η / 2 := by
    field_simp
    ring
  rw [e1]
  have e2 : ε * Real.cos (3.1415 / 2) = 2 * η := by
    rw [hη]
    ring
  rw [e2]
  linarith

/-- From rest at the origin, staying there costs the least. -/
example {N : ℝ} (hN : 0 ≤ N) : Maneuvers 0 0 0 N (3.1415 / 2) (fun _ => 0) (fun _ => 0) (fun _ => 0) (fun _ => 0) ∧
    ∀ Y Z E w, Maneuvers 0 0 0 N (3.1415 / 2) Y Z E w → 0 ≤ E (3.1415 / 2) := by
  refine ⟨⟨⟨rfl, rfl, rfl⟩, ⟨continuousOn_const, continuousOn_const, continuousOn_const⟩, fun t _ => hasDerivWithinAt_const _ _ _,
    fun t _ => hasDerivWithinAt_const _ _ _, fun t _ => (hasDerivWithinAt_const _ _ _).congr_deriv (by norm_num), fun t _ => ⟨by linarith, hN⟩⟩,
    fun Y Z E w h => ?_⟩
  have hp : (3.1415 / 2 : ℝ) < Real.pi / 2 := by linarith [Real.pi_gt_d4]
  obtain ⟨cY, cZ, cE⟩ := h.continuous
  have ct : ContinuousOn (fun t => Real.tan (3.1415 / 2 - t)) (Set.Icc 0 (3.1415 / 2)) := fun t ht =>
    (tan_rate hp ht).continuousAt.continuousWithinAt
  have q := intervalIntegral.sub_le_integral_of_hasDeriv_right_of_le (φ := fun _ => (0 : ℝ)) (by norm_num : (0 : ℝ) ≤ 3.1415 / 2)
    (g := fun t => -(E t - Real.tan (3.1415 / 2 - t) * Y t ^ 2 / 2)) (cE.sub ((ct.mul (cY.pow 2)).div_const 2)).neg
    (g' := fun t => -((Z t - Real.tan (3.1415 / 2 - t) * Y t) ^ 2 / 2)) (fun t ht => by
      refine ((h.cost t ht).sub (((tan_rate hp ⟨ht.1.le, ht.2.le⟩).hasDerivWithinAt.mul ((h.place t ht).pow 2)).div_const 2)).neg.congr_deriv ?_
      simp only [Pi.pow_apply]
      norm_num
      ring)
    MeasureTheory.integrableOn_zero (fun t _ => by linarith [sq_nonneg (Z t - Real.tan (3.1415 / 2 - t) * Y t)])
  rw [intervalIntegral.integral_zero] at q
  simp only [sub_self, Real.tan_zero, zero_mul, zero_div, sub_zero, h.start.1, h.start.2.2] at q
  norm_num at q ⊢
  linarith

/-- A motion whose control touches the bound all the time is one of the competitors. -/
example : Maneuvers 0 1 0 1 (3.1415 / 2) (fun t => t - t ^ 2 / 2) (fun t => 1 - t)
    (prim 0 0 fun t => ((1 - t) ^ 2 - (t - t ^ 2 / 2) ^ 2) / 2) (fun _ => -1) := by
  refine ⟨⟨by norm_num, by norm_num, prim_self _ _ _⟩, ⟨Continuous.continuousOn (by fun_prop), Continuous.continuousOn (by fun_prop),
    (prim_continuous _ _ (by fun_prop)).continuousOn⟩, fun t _ => ?_, fun t _ => ?_, fun t _ => ?_, fun t _ => by norm_num⟩
  · refine ((hasDerivAt_id t).sub ((hasDerivAt_pow 2 t).div_const 2)).hasDerivWithinAt.congr_deriv ?_
    norm_num
  · exact ((hasDerivAt_id t).const_sub 1).hasDerivWithinAt
  · exact (prim_deriv 0 0 (f := fun t => ((1 - t) ^ 2 - (t - t ^ 2 / 2) ^ 2) / 2) (by fun_prop) t).hasDerivWithinAt

end Beluga.E2E
