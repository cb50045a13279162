import Verif.EndToEnd.Ferry
import Mathlib.Analysis.SpecialFunctions.Arsinh
import Mathlib.Analysis.SpecialFunctions.Trigonometric.ArctanDeriv
import Mathlib.Analysis.Calculus.Deriv.Slope

/-!
# Crossings that turn back are solutions as well (C99)

The boundary value problem that beluga makes of Zermelo's problem has solutions that first go away from the other bank, and these are not the
fastest crossings: the assumption of `C99_solutions_partial` that the boat always heads for the other bank cannot be left out.
-/

namespace Beluga.E2E

open Beluga.Sym Beluga.Sym.Expr Beluga.Num Beluga.Map Beluga.Opt Beluga.Rep

/-! ### Lemmas -/

/-- A current that grows with the distance from the shore, and its derivatives. -/
def shear : Name → Nat → ℝ → ℝ := fun _ j x => if j = 0 then x else if j = 1 then 1 else 0

theorem shear_zero (n : Name) : shear n 0 = fun x => x := by
  funext x
  simp [shear]

theorem shear_smooth (n : Name) (j : Nat) (v : ℝ) : HasDerivAt (shear n j) (shear n (j + 1) v) v := by
  rcases j with _ | _ | j
  · rw [shear_zero]
    exact hasDerivAt_id v
  · exact hasDerivAt_const v (1 : ℝ)
  · exact hasDerivAt_const v (0 : ℝ)

/-- The way north of the crossing that turns back. -/
noncomputable def turnY (t : ℝ) : ℝ :=
  ((t - 4 / 3) * √(1 + (t - 4 / 3) ^ 2) - Real.arsinh (t - 4 / 3)) / 2 - 5 / 3 * t - (Real.arsinh (4 / 3) - 20 / 9) / 2

theorem root_pos (y : ℝ) : 0 < √(1 + y ^ 2) := Real.sqrt_pos.2 (by positivity)

theorem root_deriv (t : ℝ) : HasDerivAt (fun t : ℝ => √(1 + (t - 4 / 3) ^ 2)) ((t - 4 / 3) / √(1 + (t - 4 / 3) ^ 2)) t := by
  have k : HasDerivAt (fun t : ℝ => 1 + (t - 4 / 3) ^ 2) (2 * (t - 4 / 3)) t :=
    ((((hasDerivAt_id t).sub_const (4 / 3)).pow 2).const_add 1).congr_deriv (by simp)
  refine (k.sqrt (by positivity)).congr_deriv ?_
  have := (root_pos (t - 4 / 3)).ne'
  field_simp

/-- The crossing. It first goes away from the other bank, for the time 4/3. -/
theorem turns_back : Navigates 1 (shear "drift_y" 0) (3 / 5) (56 / 15) (fun t => √(1 + (t - 4 / 3) ^ 2) - 5 / 3) turnY
    (fun t => Real.arctan (t - 4 / 3) - Real.pi / 2) where
  start := by
    have : √(1 + ((0 : ℝ) - 4 / 3) ^ 2) = 5 / 3 := by
      rw [show (1 : ℝ) + (0 - 4 / 3) ^ 2 = (5 / 3) ^ 2 by norm_num]
      exact Real.sqrt_sq (by norm_num)
    refine ⟨by rw [this]; norm_num, ?_⟩
    rw [turnY, this, show (0 : ℝ) - 4 / 3 = -(4 / 3) by norm_num, Real.arsinh_neg]
    ring
  east := fun t _ => by
    rw [Real.cos_sub_pi_div_two, Real.sin_arctan, one_mul]
    exact (root_deriv t).sub_const _
  north := fun t _ => by
    rw [Real.sin_sub_pi_div_two, Real.cos_arctan, shear_zero]
    have r := root_pos (t - 4 / 3)
    have lin : HasDerivAt (fun t : ℝ => t - 4 / 3) 1 t := (hasDerivAt_id t).sub_const _
    have a : HasDerivAt (fun t : ℝ => Real.arsinh (t - 4 / 3)) (√(1 + (t - 4 / 3) ^ 2))⁻¹ t :=
      (HasDerivAt.comp (h₂ := Real.arsinh) (h := fun t => t - 4 / 3) t (Real.hasDerivAt_arsinh (t - 4 / 3)) lin).congr_deriv (mul_one _)
    have := (((((lin.mul (root_deriv t)).sub a).div_const 2).sub ((hasDerivAt_id t).const_mul (5 / 3))).sub_const
      ((Real.arsinh (4 / 3) - 20 / 9) / 2))
    refine this.congr_deriv ?_
    have sq : √(1 + (t - 4 / 3) ^ 2) ^ 2 = 1 + (t - 4 / 3) ^ 2 := Real.sq_sqrt (by positivity)
    generalize √(1 + (t - 4 / 3) ^ 2) = R at *
    generalize t - 4 / 3 = y at *
    field_simp
    linear_combination (-3) * sq
  turn := fun t _ => by
    have lin : HasDerivAt (fun t : ℝ => t - 4 / 3) 1 t := (hasDerivAt_id t).sub_const _
    rw [Real.sin_sub_pi_div_two, Real.cos_arctan, shear_zero, show deriv (fun x : ℝ => x) = fun _ => 1 from deriv_id']
    refine ((HasDerivAt.comp (h₂ := Real.arctan) (h := fun t => t - 4 / 3) t (Real.hasDerivAt_arctan (t - 4 / 3)) lin).sub_const (Real.pi / 2)).congr_deriv ?_
    rw [neg_sq, div_pow, Real.sq_sqrt (by positivity)]
    norm_num
  fast := fun t _ => by
    rw [Real.sin_sub_pi_div_two, Real.cos_arctan, shear_zero]
    have r := root_pos (t - 4 / 3)
    have e : 1 + (√(1 + (t - 4 / 3) ^ 2) - 5 / 3) * -(1 / √(1 + (t - 4 / 3) ^ 2)) = 5 / 3 / √(1 + (t - 4 / 3) ^ 2) := by
      field_simp
      ring
    simp only [e]
    positivity
  law := fun t _ => by
    rw [Real.sin_sub_pi_div_two, Real.cos_arctan, shear_zero]
    have r := (root_pos (t - 4 / 3)).ne'
    field_simp
    ring

/-- It is carried far back by the current, but not too far. -/
theorem turnY_end : -(3858 / 1000) ≤ turnY (56 / 15) ∧ turnY (56 / 15) < 98 / 225 := by
  have le : ∀ x : ℝ, 0 ≤ x → 0 ≤ Real.arsinh x ∧ Real.arsinh x ≤ x := by
    intro x hx
    have h0 := Real.arsinh_nonneg_iff.2 hx
    refine ⟨h0, ?_⟩
    have := Real.self_le_sinh_iff.2 h0
    rwa [Real.sinh_arsinh] at this
  have e : turnY (56 / 15) = (156 / 25 - Real.arsinh (12 / 5)) / 2 - 56 / 9 - (Real.arsinh (4 / 3) - 20 / 9) / 2 := by
    have : √(1 + ((56 : ℝ) / 15 - 4 / 3) ^ 2) = 13 / 5 := by
      rw [show (1 : ℝ) + (56 / 15 - 4 / 3) ^ 2 = (13 / 5) ^ 2 by norm_num]
      exact Real.sqrt_sq (by norm_num)
    rw [turnY, this]
    norm_num
  obtain ⟨a1, a2⟩ := le (12 / 5) (by norm_num)
  obtain ⟨b1, b2⟩ := le (4 / 3) (by norm_num)
  rw [e]
  constructor <;> linarith

theorem miss_deriv {ε w u : ℝ} (hw : 0 < w) (hu : Real.cos u ≠ 0) :
    HasDerivAt (miss ε w) (ε * (Real.pi / 2 / w) * (Real.sin u / Real.cos u ^ 2)) (2 * w * u / Real.pi) := by
  have hp := Real.pi_pos
  have arg : Real.pi / 2 * (2 * w * u / Real.pi / w) = u := by field_simp
  have lin : HasDerivAt (fun z => Real.pi / 2 * (z / w)) (Real.pi / 2 * (1 / w)) (2 * w * u / Real.pi) :=
    ((hasDerivAt_id _).div_const w).const_mul _
  have kk := (((lin.cos.inv (by rw [arg]; exact hu)).sub_const 1).const_mul ε)
  have em : miss ε w = fun z => ε * ((fun z => Real.cos (Real.pi / 2 * (z / w)))⁻¹ z - 1) := by
    funext z
    simp [miss]
  rw [em]
  refine kk.congr_deriv ?_
  rw [arg]
  field_simp

/-- With a wide enough place to land the penalty grows almost linearly. -/
theorem miss_gentle {k D η : ℝ} (hk : 0 < k) (hD : 0 < D) (hη : 0 < η) : ∃ ε w z, 0 < ε ∧ 0 < w ∧ 0 < z ∧ z + D < w ∧ HasDerivAt (miss ε w) k z ∧
    miss ε w (z + D) < miss ε w z + (k + η) * D := by
  have hp := Real.pi_pos
  obtain ⟨σ, hσ⟩ : ∃ σ, σ = Real.sin (Real.pi / 4) / Real.cos (Real.pi / 4) ^ 2 := ⟨_, rfl⟩
  have c0 : 0 < Real.cos (Real.pi / 4) := by rw [Real.cos_pi_div_four]; positivity
  have σ0 : 0 < σ := by
    rw [hσ, Real.sin_pi_div_four]
    positivity
  have dsec : HasDerivAt (fun u => (Real.cos u)⁻¹) σ (Real.pi / 4) := by
    refine ((Real.hasDerivAt_cos _).inv c0.ne').congr_deriv ?_
    rw [hσ, neg_neg]
  have lim := dsec.tendsto_slope_zero_right
  have ev := lim.eventually_lt_const (show σ < σ * (1 + η / k) by
    have : 0 < σ * (η / k) := by positivity
    linarith)
  have ev2 : ∀ᶠ h in nhdsWithin (0 : ℝ) (Set.Ioi 0), h < Real.pi / 4 :=
    (Filter.tendsto_id.eventually_lt_const (show (0 : ℝ) < Real.pi / 4 by positivity)).filter_mono nhdsWithin_le_nhds
  obtain ⟨h, ⟨h1, h2⟩, h0⟩ := ((ev.and ev2).and self_mem_nhdsWithin).exists
  have h0 : 0 < h := h0
  obtain ⟨w, hw⟩ : ∃ w, w = Real.pi * D / (2 * h) := ⟨_, rfl⟩
  have w0 : 0 < w := by rw [hw]; positivity
  obtain ⟨ε, hε⟩ : ∃ ε, ε = k * D / (h * σ) := ⟨_, rfl⟩
  have ε0 : 0 < ε := by rw [hε]; positivity
  have z1 : 2 * w * (Real.pi / 4) / Real.pi = w / 2 := by field_simp; norm_num
  have eD : D = 2 * h * w / Real.pi := by rw [hw]; field_simp
  refine ⟨ε, w, w / 2, ε0, w0, by positivity, ?_, ?_, ?_⟩
  · have : 2 * h * w / Real.pi < w / 2 := by
      rw [div_lt_div_iff₀ hp two_pos]
      nlinarith
    linarith
  · have := miss_deriv (ε := ε) w0 c0.ne'
    rw [z1, ← hσ] at this
    refine this.congr_deriv ?_
    rw [hε, hw]
    field_simp
  · have a1 : Real.pi / 2 * (w / 2 / w) = Real.pi / 4 := by field_simp; norm_num
    have a2 : Real.pi / 2 * ((w / 2 + D) / w) = Real.pi / 4 + h := by
      rw [eD]
      field_simp
      ring
    simp only [smul_eq_mul] at h1
    rw [inv_mul_lt_iff₀ h0] at h1
    have h3 := mul_lt_mul_of_pos_left h1 ε0
    have e : ε * (h * (σ * (1 + η / k))) = (k + η) * D := by
      rw [hε]
      field_simp
    rw [e] at h3
    simp only [miss, a1, a2, one_div]
    linarith

/-! ### Properties -/

/-- Not every solution of the boundary value problem that beluga makes of Zermelo's problem is a fastest crossing: there is one with all
properties that `C99_solutions_partial` assumes except that it first goes away from the other bank, and going straight for the other bank is
better. -/
theorem C99_violated : ∃ ρ, Solves shear zermBvp 0 1 ρ ∧ Regular brachS shear zermQ zermBvp 0 1 ρ ∧ 0 < ρ 0 "_delta_t" ∧
    (∀ t ∈ Set.Icc (0 : ℝ) 1, DifferentiableAt ℝ (fun τ => ρ τ "theta") t) ∧ 0 < ρ 1 "V" ∧ 0 < ρ 1 "epsilon" ∧
    (∀ t ∈ Set.Icc (0 : ℝ) 1, 0 < ρ 1 "V" + shear "drift_y" 0 (ρ t "x") * Real.sin (ρ t "theta")) ∧
    |ρ 1 "y" - ρ 1 "y_f"| < ρ 1 "y_f_width" ∧ (∃ t ∈ Set.Icc (0 : ℝ) 1, Real.cos (ρ t "theta") < 0) ∧
    ∃ T X Y Θ, 0 ≤ T ∧ Crosses (ρ 1 "V") (shear "drift_y" 0) (ρ 1 "x_f") T X Y Θ ∧ |Y T - ρ 1 "y_f"| < ρ 1 "y_f_width" ∧
      T + miss (ρ 1 "epsilon") (ρ 1 "y_f_width") (Y T - ρ 1 "y_f") <
        ρ 1 "t" + miss (ρ 1 "epsilon") (ρ 1 "y_f_width") (ρ 1 "y" - ρ 1 "y_f") := by
  obtain ⟨y1, y2⟩ := turnY_end
  obtain ⟨ε, w, z, hε, hw, hz, near, slope, gentle⟩ := miss_gentle (k := 3 / 5) (D := 98 / 225 - turnY (56 / 15)) (η := 1 / 20)
    (by norm_num) (by linarith) (by norm_num)
  have h := turns_back
  obtain ⟨ρ, s1, s2, s3, s4, s5, s6⟩ := C99_complete (shear_smooth "drift_y") h one_pos (by norm_num) (z := z) (w := w) (ε := ε)
    (by rw [abs_of_pos hz]; linarith) slope
  obtain ⟨v1, v2, v3, v4, v5⟩ := s5 1
  have y : ρ 1 "y" - ρ 1 "y_f" = z := by rw [(s6 1).2.2.1, v5, mul_one, sub_sub_cancel]
  have xT : √(1 + ((56 : ℝ) / 15 - 4 / 3) ^ 2) - 5 / 3 = 14 / 15 := by
    rw [show (1 : ℝ) + (56 / 15 - 4 / 3) ^ 2 = (13 / 5) ^ 2 by norm_num, Real.sqrt_sq (by norm_num)]
    norm_num
  have land : (98 : ℝ) / 225 - ρ 1 "y_f" = z + (98 / 225 - turnY (56 / 15)) := by
    rw [v5]
    ring
  refine ⟨ρ, s1, s2, s3, s4, by rw [v1]; exact one_pos, by rw [v2]; exact hε, ?_, ?_, ⟨0, by simp, ?_⟩, 14 / 15, fun t => t,
    fun t => t ^ 2 / 2, fun _ => 0, by norm_num, ⟨by norm_num, ?_, ?_, ?_, ?_⟩, ?_, ?_⟩
  · intro t ht
    rw [v1, (s6 t).2.1, (s6 t).2.2.2]
    exact h.fast _ ⟨by nlinarith [ht.1], by nlinarith [ht.2]⟩
  · rw [y, v3, abs_of_pos hz]
    linarith
  · rw [(s6 0).2.2.2, Real.cos_sub_pi_div_two, Real.sin_arctan_lt_zero]
    norm_num
  · rw [v4, xT]
  · intro t ht
    rw [v4, xT]
    exact ht
  · exact ⟨by fun_prop, by fun_prop⟩
  · intro t _
    rw [v1, shear_zero]
    refine ⟨(hasDerivAt_id t).congr_deriv (by simp), ?_⟩
    have := ((hasDerivAt_id t).pow 2).div_const 2
    refine this.congr_deriv ?_
    simp
  · dsimp only
    rw [show ((14 : ℝ) / 15) ^ 2 / 2 = 98 / 225 by norm_num, land, v3, abs_of_pos (by linarith)]
    exact near
  · dsimp only
    rw [show ((14 : ℝ) / 15) ^ 2 / 2 = 98 / 225 by norm_num, land, y, v2, v3, (s6 1).1]
    linarith

end Beluga.E2E
