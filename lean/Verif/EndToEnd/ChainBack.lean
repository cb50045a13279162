import Verif.EndToEnd.Chain
import Mathlib.Analysis.SpecialFunctions.Trigonometric.Arctan
import Mathlib.Analysis.Complex.Trigonometric

/-!
# Every chain can hang and stand (C97)

The converse of `Verif.EndToEnd.Chain`: for every two points that are not one above the other, and every length greater than their
distance, the boundary value problem that beluga makes of the hanging chain with its default options has the lowest chain as a solution,
but also the highest one.
-/

namespace Beluga.E2E

open Beluga.Sym Beluga.Sym.Expr Beluga.Num Beluga.Map Beluga.Opt Beluga.Rep

/-! ### Catenaries between two points -/

theorem sinh_le_mul_cosh {m : ℝ} (hm : 0 ≤ m) : Real.sinh m ≤ m * Real.cosh m := by
  have mono : MonotoneOn (fun m => m * Real.cosh m - Real.sinh m) (Set.Ici 0) := by
    refine monotoneOn_of_deriv_nonneg (convex_Ici 0) (by fun_prop) (by fun_prop) ?_
    intro x hx
    rw [interior_Ici] at hx
    have : HasDerivAt (fun m => m * Real.cosh m - Real.sinh m) (1 * Real.cosh x + x * Real.sinh x - Real.cosh x) x :=
      ((hasDerivAt_id x).mul (Real.hasDerivAt_cosh x)).sub (Real.hasDerivAt_sinh x)
    rw [this.deriv]
    have := mul_nonneg (le_of_lt hx) (Real.sinh_nonneg_iff.2 (le_of_lt hx))
    linarith
  have := mono (Set.self_mem_Ici) hm hm
  simp only [Real.sinh_zero, zero_mul, sub_zero] at this
  linarith

/-- The equation `sinh m / m = R` has a solution for `1 < R`. -/
theorem sinh_div {R : ℝ} (hR : 1 < R) : ∃ m, 0 < m ∧ Real.sinh m = R * m := by
  have hq : 0 < R ^ 2 - 1 := by nlinarith
  obtain ⟨m1, hm1⟩ : ∃ m1, m1 = Real.arsinh (√(R ^ 2 - 1)) := ⟨_, rfl⟩
  have p1 : 0 < m1 := by
    rw [hm1]
    exact Real.arsinh_pos_iff.2 (Real.sqrt_pos.2 hq)
  have c1 : Real.cosh m1 = R := by
    rw [hm1, Real.cosh_arsinh, Real.sq_sqrt hq.le, show 1 + (R ^ 2 - 1) = R ^ 2 by ring, Real.sqrt_sq (by linarith)]
  have lo : Real.sinh m1 - R * m1 ≤ 0 := by
    have := sinh_le_mul_cosh p1.le
    rw [c1] at this
    linarith
  have hi : 0 ≤ Real.sinh (4 * R) - R * (4 * R) := by
    have e1 := Real.quadratic_le_exp_of_nonneg (x := 4 * R) (by linarith)
    have e2 : Real.exp (-(4 * R)) ≤ 1 := Real.exp_le_one_iff.2 (by linarith)
    rw [Real.sinh_eq]
    nlinarith
  have c : ContinuousOn (fun m => Real.sinh m - R * m) (Set.uIcc m1 (4 * R)) := by fun_prop
  obtain ⟨m, hm, hz⟩ := intermediate_value_uIcc c (Set.mem_uIcc.2 (Or.inl ⟨lo, hi⟩) : (0 : ℝ) ∈ _)
  refine ⟨m, ?_, by simp only at hz; linarith⟩
  rcases Set.mem_uIcc.1 hm with h | h <;> linarith [h.1]

/-- There is a hanging catenary and one that stands as an arch between any two points that are not one above the other, of any length
greater than their distance. -/
theorem catenary_exists {l d h σ : ℝ} (hl : 0 < l) (hd : d ≠ 0) (hlt : d ^ 2 + h ^ 2 < l ^ 2) (hσ : σ = 1 ∨ σ = -1) :
    ∃ k c δ, 0 < k ∧ (δ = 1 ∨ δ = -1) ∧ (catenary k c 0 0 δ σ l).1 - (catenary k c 0 0 δ σ 0).1 = d ∧
      (catenary k c 0 0 δ σ l).2 - (catenary k c 0 0 δ σ 0).2 = h := by
  have hA : 0 < |d| := abs_pos.2 hd
  have hw2 : 0 < l ^ 2 - h ^ 2 := by nlinarith [sq_nonneg d]
  obtain ⟨w, hw⟩ : ∃ w, w = √(l ^ 2 - h ^ 2) := ⟨_, rfl⟩
  have hw0 : 0 < w := by
    rw [hw]
    exact Real.sqrt_pos.2 hw2
  have hww : w ^ 2 = l ^ 2 - h ^ 2 := by rw [hw, Real.sq_sqrt hw2.le]
  have hwA : |d| < w := by
    rw [← sq_lt_sq₀ hA.le hw0.le, sq_abs, hww]
    linarith
  obtain ⟨m, hm, hs⟩ := sinh_div (R := w / |d|) (by rw [one_lt_div hA]; exact hwA)
  have hσ2 : σ * σ = 1 := by rcases hσ with rfl | rfl <;> norm_num
  obtain ⟨u, hu⟩ : ∃ u, u = Real.arsinh (σ * h / w) := ⟨_, rfl⟩
  have su : Real.sinh u = σ * h / w := by rw [hu, Real.sinh_arsinh]
  have cu : w * Real.cosh u = l := by
    have h1 := Real.cosh_sq u
    have h2 : (w * Real.cosh u) ^ 2 = l ^ 2 := by
      rw [mul_pow, h1, su]
      field_simp
      linear_combination h ^ 2 * hσ2 + hww
    exact (pow_left_inj₀ (mul_nonneg hw0.le (Real.cosh_pos u).le) hl.le two_ne_zero).1 h2
  obtain ⟨k, hk⟩ : ∃ k, k = |d| / (2 * m) := ⟨_, rfl⟩
  have hk0 : 0 < k := by
    rw [hk]
    positivity
  have ks : k * (2 * Real.sinh m) = w := by
    rw [hk, hs]
    field_simp
  have a0 : (0 - -(k * Real.sinh (u - m))) / k = Real.sinh (u - m) := by field_simp; ring
  have a1 : (l - -(k * Real.sinh (u - m))) / k = Real.sinh (u + m) := by
    rw [div_eq_iff hk0.ne', Real.sinh_add, Real.sinh_sub]
    linear_combination (-1 : ℝ) * cu - Real.cosh u * ks
  refine ⟨k, -(k * Real.sinh (u - m)), d / |d|, hk0, ?_, ?_, ?_⟩
  · rcases abs_cases d with ⟨e, -⟩ | ⟨e, -⟩ <;> rw [e] <;> simp [hd, div_neg]
  · simp only [catenary]
    rw [a0, a1, Real.arsinh_sinh, Real.arsinh_sinh, hk]
    field_simp
    ring
  · simp only [catenary]
    rw [a0, a1, Real.arsinh_sinh, Real.arsinh_sinh, Real.cosh_add, Real.cosh_sub, su]
    field_simp
    linear_combination (h * w) * hσ2 + (h * σ ^ 2) * ks

/-- A hanging catenary is no arch. -/
theorem catenary_sign {l k k' c c' x₁ x₁' y₁ y₁' δ δ' σ σ' : ℝ} (hl : 0 < l) (hk : 0 < k) (hk' : 0 < k') (hδ : δ = 1 ∨ δ = -1)
    (hδ' : δ' = 1 ∨ δ' = -1) (hσ : σ = 1 ∨ σ = -1) (hσ' : σ' = 1 ∨ σ' = -1)
    (h : ∀ s ∈ Set.Icc 0 l, catenary k c x₁ y₁ δ σ s = catenary k' c' x₁' y₁' δ' σ' s) : σ = σ' := by
  have key : ∀ s ∈ Set.Ioo 0 l, (s - c) / k * (σ * δ) = (s - c') / k' * (σ' * δ') ∧ δ = δ' := by
    intro s hs
    have hn : 0 < √(k ^ 2 + (s - c) ^ 2) := Real.sqrt_pos.2 (by positivity)
    have hn' : 0 < √(k' ^ 2 + (s - c') ^ 2) := Real.sqrt_pos.2 (by positivity)
    have ev : catenary k c x₁ y₁ δ σ =ᶠ[nhds s] catenary k' c' x₁' y₁' δ' σ' :=
      Filter.eventually_of_mem (Icc_mem_nhds hs.1 hs.2) h
    obtain ⟨d1, d2⟩ := catenary_deriv hk c x₁ y₁ δ σ s
    obtain ⟨d1', d2'⟩ := catenary_deriv hk' c' x₁' y₁' δ' σ' s
    have e1 := d1.unique (d1'.congr_of_eventuallyEq (ev.fun_comp Prod.fst))
    have e2 := d2.unique (d2'.congr_of_eventuallyEq (ev.fun_comp Prod.snd))
    have hp := div_pos hk hn
    have hp' := div_pos hk' hn'
    have dd : δ = δ' := by
      rcases hδ with rfl | rfl <;> rcases hδ' with rfl | rfl
      · rfl
      · linarith
      · linarith
      · rfl
    refine ⟨?_, dd⟩
    subst dd
    have hδ0 : δ ≠ 0 := by rcases hδ with rfl | rfl <;> norm_num
    have e3 := mul_left_cancel₀ hδ0 e1
    have : (s - c) / k * σ = (s - c') / k' * σ' := by
      have q : σ * ((s - c) / k * (k / √(k ^ 2 + (s - c) ^ 2))) = σ' * ((s - c') / k' * (k' / √(k' ^ 2 + (s - c') ^ 2))) := by
        rw [div_mul_div_cancel₀ hk.ne', div_mul_div_cancel₀ hk'.ne']
        exact e2
      rw [← e3] at q
      refine mul_right_cancel₀ hp.ne' ?_
      linear_combination q
    linear_combination δ * this
  obtain ⟨q1, dd⟩ := key (l / 3) ⟨by linarith, by linarith⟩
  obtain ⟨q2, -⟩ := key (l / 2) ⟨by linarith, by linarith⟩
  subst dd
  have hδ0 : δ ≠ 0 := by rcases hδ with rfl | rfl <;> norm_num
  have q : (σ * (l / 6 / k)) = σ' * (l / 6 / k') := by
    refine mul_left_cancel₀ hδ0 ?_
    linear_combination q2 - q1
  have p1 : 0 < l / 6 / k := by positivity
  have p2 : 0 < l / 6 / k' := by positivity
  rcases hσ with rfl | rfl <;> rcases hσ' with rfl | rfl
  · rfl
  · linarith
  · linarith
  · rfl

/-! ### A catenary as an extremal -/

/-- The catenary from `(x0, y0)` with its direction, arc length and constants. -/
noncomputable def chainCurve (k c δ σ x0 y0 l t : ℝ) : Env := fun s =>
  if s = "x" then x0 + ((catenary k c 0 0 δ σ t).1 - (catenary k c 0 0 δ σ 0).1)
  else if s = "y" then y0 + ((catenary k c 0 0 δ σ t).2 - (catenary k c 0 0 δ σ 0).2)
  else if s = "theta" then (1 - δ) / 2 * Real.pi + δ * Real.arctan (σ * (t - c) / k)
  else if s = "s" then t else if s = "x_0" then x0 else if s = "y_0" then y0
  else if s = "x_f" then x0 + ((catenary k c 0 0 δ σ l).1 - (catenary k c 0 0 δ σ 0).1)
  else if s = "y_f" then y0 + ((catenary k c 0 0 δ σ l).2 - (catenary k c 0 0 δ σ 0).2)
  else if s = "s_f" then l else 0

/-- The costates of the catenary. -/
noncomputable def chainLam (k c δ σ t : ℝ) : Name → ℝ := fun s => if s = "x" then -(σ * δ * k) else if s = "y" then c - t else 0

theorem chain_direction {k : ℝ} (hk : 0 < k) (c t : ℝ) {δ σ : ℝ} (hδ : δ = 1 ∨ δ = -1) (hσ : σ = 1 ∨ σ = -1) :
    Real.cos ((1 - δ) / 2 * Real.pi + δ * Real.arctan (σ * (t - c) / k)) = δ * (k / √(k ^ 2 + (t - c) ^ 2)) ∧
      Real.sin ((1 - δ) / 2 * Real.pi + δ * Real.arctan (σ * (t - c) / k)) = σ * ((t - c) / √(k ^ 2 + (t - c) ^ 2)) := by
  have hn : √(1 + (σ * (t - c) / k) ^ 2) = √(k ^ 2 + (t - c) ^ 2) / k := by
    rw [chain_norm hk, mul_pow, show σ ^ 2 = 1 by rcases hσ with rfl | rfl <;> norm_num, one_mul]
  have hp : 0 < √(k ^ 2 + (t - c) ^ 2) := Real.sqrt_pos.2 (by positivity)
  have ec : Real.cos (Real.arctan (σ * (t - c) / k)) = k / √(k ^ 2 + (t - c) ^ 2) := by
    rw [Real.cos_arctan, hn]
    field_simp
  have es : Real.sin (Real.arctan (σ * (t - c) / k)) = σ * ((t - c) / √(k ^ 2 + (t - c) ^ 2)) := by
    rw [Real.sin_arctan, hn]
    field_simp
  rcases hδ with rfl | rfl
  · rw [show (1 - 1) / 2 * Real.pi + 1 * Real.arctan (σ * (t - c) / k) = Real.arctan (σ * (t - c) / k) by ring, ec, es]
    exact ⟨by ring, rfl⟩
  · rw [show (1 - -1) / 2 * Real.pi + -1 * Real.arctan (σ * (t - c) / k) = Real.pi - Real.arctan (σ * (t - c) / k) by ring,
      Real.cos_pi_sub, Real.sin_pi_sub, ec, es]
    exact ⟨by ring, rfl⟩

theorem chain_start (U : Name → Nat → ℝ → ℝ) (B : ℝ → ℝ → ℝ → ℝ → ℝ) (ν : Nat → ℝ) (σ : Env) :
    lagrange (userOcp U id B chain).costInitial (userOcp U id B chain).initial ν σ =
      ν 0 * (σ "x" - σ "x_0") + (ν 1 * (σ "y" - σ "y_0") + ν 2 * σ "s") := by
  simp [lagrange, userOcp, chain, penalties, Con.twoSided, List.filter, eval]

theorem chain_stop (U : Name → Nat → ℝ → ℝ) (B : ℝ → ℝ → ℝ → ℝ → ℝ) (ν : Nat → ℝ) (σ : Env) :
    lagrange (userOcp U id B chain).costTerminal (userOcp U id B chain).terminal ν σ =
      ν 0 * (σ "x" - σ "x_f") + (ν 1 * (σ "y" - σ "y_f") + ν 2 * (σ "s" - σ "s_f")) := by
  simp [lagrange, userOcp, chain, penalties, Con.twoSided, List.filter, eval]

theorem chain_extremal (U : Name → Nat → ℝ → ℝ) (B : ℝ → ℝ → ℝ → ℝ → ℝ) {k : ℝ} (hk : 0 < k) (c x0 y0 l : ℝ) {δ σ : ℝ}
    (hδ : δ = 1 ∨ δ = -1) (hσ : σ = 1 ∨ σ = -1) :
    ∃ ν₀ ν₁, Extremal (userOcp U id B chain) 0 l (chainCurve k c δ σ x0 y0 l) (chainLam k c δ σ) ν₀ ν₁ := by
  have e1 : ∀ v, (real U).fn .cos v = Real.cos v := fun _ => rfl
  have e2 : ∀ v, (real U).fn .sin v = Real.sin v := fun _ => rfl
  have dir := fun t => chain_direction hk c t hδ hσ
  have hδ2 : δ * δ = 1 := by rcases hδ with rfl | rfl <;> norm_num
  refine ⟨fun i => if i = 2 then (userOcp U id B chain).ham (chainLam k c δ σ 0) (chainCurve k c δ σ x0 y0 l 0) else
      -chainLam k c δ σ 0 (["x", "y"].getD i ""),
    fun i => if i = 2 then -(userOcp U id B chain).ham (chainLam k c δ σ l) (chainCurve k c δ σ x0 y0 l l) else
      chainLam k c δ σ l (["x", "y"].getD i ""), ?_⟩
  refine ⟨?_, ?_, ?_, ?_, ?_, ?_, ?_, ?_, ?_, ?_, ?_⟩
  · intro t _
    simp [userOcp, chain, chainCurve]
  · intro s hs t _
    simp only [userOcp, chain, List.mem_cons, List.not_mem_nil, or_false] at hs
    rcases hs with rfl | rfl | rfl | rfl | rfl | rfl <;> simp [chainCurve]
  · intro p hp t _
    simp only [userOcp, chain, List.map_cons, List.map_nil, List.mem_cons, List.not_mem_nil, or_false] at hp
    rcases hp with rfl | rfl
    · simp only [chainCurve, String.reduceEq, if_true, if_false, id, eval, e1, (dir t).1]
      exact ((catenary_deriv hk c 0 0 δ σ t).1.sub_const _).const_add _
    · simp only [chainCurve, String.reduceEq, if_true, if_false, id, eval, e2, (dir t).2]
      exact ((catenary_deriv hk c 0 0 δ σ t).2.sub_const _).const_add _
  · intro p hp t _
    simp only [userOcp, chain, List.map_cons, List.map_nil, List.mem_cons, List.not_mem_nil, or_false] at hp
    rcases hp with rfl | rfl
    · refine ⟨0, ?_, ?_⟩
      · simp only [HasPartial, chain_ham, Function.update_apply, String.reduceEq, if_false]
        exact hasDerivAt_const _ _
      · simp only [chainLam, if_true, neg_zero]
        exact hasDerivAt_const _ _
    · refine ⟨1, ?_, ?_⟩
      · simp only [HasPartial, chain_ham, Function.update_apply, String.reduceEq, if_false, if_true]
        exact (hasDerivAt_id _).add_const _
      · simp only [chainLam, String.reduceEq, if_true, if_false]
        exact (hasDerivAt_id t).const_sub c
  · intro u hu t _
    have hu : u = "theta" := by simpa [userOcp, chain, epsControls] using hu
    subst hu
    simp only [HasPartial, chain_ham, Function.update_apply, String.reduceEq, if_false, if_true]
    simp only [chainLam, chainCurve, String.reduceEq, if_true, if_false]
    refine ((((Real.hasDerivAt_cos _).const_mul _).add ((Real.hasDerivAt_sin _).const_mul _)).const_add _).congr_deriv ?_
    rw [(dir t).1, (dir t).2]
    rcases hσ with rfl | rfl <;> ring
  · intro d hd
    simp only [userOcp, chain, Con.twoSided, List.filter, Option.isSome, Bool.and_false, Bool.not_false, List.map_cons, List.map_nil,
      List.mem_cons, List.not_mem_nil, or_false] at hd
    rcases hd with rfl | rfl | rfl <;> simp [chainCurve, eval]
  · intro d hd
    simp only [userOcp, chain, Con.twoSided, List.filter, Option.isSome, Bool.and_false, Bool.not_false, List.map_cons, List.map_nil,
      List.mem_cons, List.not_mem_nil, or_false] at hd
    rcases hd with rfl | rfl | rfl <;> simp [chainCurve, eval]
  · intro p hp
    simp only [userOcp, chain, List.map_cons, List.map_nil, List.mem_cons, List.not_mem_nil, or_false] at hp
    rcases hp with rfl | rfl
    all_goals simp only [HasPartial, chain_start, Function.update_apply, String.reduceEq, if_true, if_false]
    · exact ((((hasDerivAt_id _).sub_const _).const_mul _).add_const _).congr_deriv (by simp)
    · exact (((((hasDerivAt_id _).sub_const _).const_mul _).add_const _).const_add _).congr_deriv (by simp)
  · intro p hp
    simp only [userOcp, chain, List.map_cons, List.map_nil, List.mem_cons, List.not_mem_nil, or_false] at hp
    rcases hp with rfl | rfl
    all_goals simp only [HasPartial, chain_stop, Function.update_apply, String.reduceEq, if_true, if_false]
    · exact ((((hasDerivAt_id _).sub_const _).const_mul _).add_const _).congr_deriv (by simp)
    · exact (((((hasDerivAt_id _).sub_const _).const_mul _).add_const _).const_add _).congr_deriv (by simp)
  · show HasPartial _ "s" _ _
    simp only [HasPartial, chain_start, Function.update_apply, String.reduceEq, if_true, if_false]
    exact ((((hasDerivAt_id _).const_mul _).const_add _).const_add _).congr_deriv (by simp)
  · show HasPartial _ "s" _ _
    simp only [HasPartial, chain_stop, Function.update_apply, String.reduceEq, if_true, if_false]
    exact (((((hasDerivAt_id _).sub_const _).const_mul _).const_add _).const_add _).congr_deriv (by simp)

/-! ### What beluga makes of the problem -/

/-- The boundary value problem. -/
def chainBvp : Prob := match indirect chainS {} chain with
  | .ok p => p
  | .error _ => {}

theorem chainBvp_ok : indirect chainS {} chain = .ok chainBvp := by
  have : (match indirect chainS {} chain with | .ok _ => true | .error _ => false) = true := by decide +kernel
  rw [chainBvp]
  cases h : indirect chainS {} chain with
  | ok p => rfl
  | error e => rw [h] at this; cases this

/-- The Hamiltonian. -/
def chainH : Expr := hamiltonianOf (sym "y") [⟨"x", fn .cos (sym "theta")⟩, ⟨"y", fn .sin (sym "theta")⟩, ⟨"s", 1⟩]

theorem chainQ_ham : hexpr chainQ = chainH := by decide +kernel

theorem chainBvp_facts : (∀ d ∈ chainBvp.states, ∀ e ∈ denoms d.eom, e = detE 1 fun _ _ => (chainH.diff "theta").diff "theta") ∧
    chainBvp.controls = [] ∧ chainBvp.controlLaw = [] ∧ chainBvp.omega = none := by decide +kernel

theorem chainH_second {U : Name → Nat → ℝ → ℝ} {σ : Env} : eval (real U) σ ((chainH.diff "theta").diff "theta") =
    -(σ "_lam_x" * Real.cos (σ "theta") + σ "_lam_y" * Real.sin (σ "theta")) := by
  have e1 : ∀ v, (real U).fn .cos v = Real.cos v := fun _ => rfl
  have e2 : ∀ v, (real U).fn .sin v = Real.sin v := fun _ => rfl
  simp [chainH, hamiltonianOf, lamName, diff, dfn, eval, e1, e2]
  ring

/-! ### Properties -/

/-- Catenaries are solutions: every catenary, hanging or not, is carried by a solution of the boundary value problem that beluga makes of
the hanging chain with its default options, with the ends of the catenary as ends. -/
theorem C97_complete (U : Name → Nat → ℝ → ℝ) {k l : ℝ} (hk : 0 < k) (hl : 0 < l) (c x0 y0 : ℝ) {δ σ : ℝ} (hδ : δ = 1 ∨ δ = -1)
    (hσ : σ = 1 ∨ σ = -1) :
    ∃ ρ, Solves U chainBvp 0 1 ρ ∧ Regular chainS U chainQ chainBvp 0 1 ρ ∧ 0 < ρ 0 "_delta_s" ∧
      ContinuousOn (fun τ => ρ τ "theta") (Set.Icc 0 1) ∧ ρ 0 "x_0" = x0 ∧ ρ 0 "y_0" = y0 ∧ ρ 1 "s_f" = l ∧
      ρ 1 "x_f" = x0 + ((catenary k c 0 0 δ σ l).1 - (catenary k c 0 0 δ σ 0).1) ∧
      ρ 1 "y_f" = y0 + ((catenary k c 0 0 δ σ l).2 - (catenary k c 0 0 δ σ 0).2) ∧
      ∀ τ ∈ Set.Icc (0 : ℝ) 1, ρ τ "s" = l * τ ∧
        ρ τ "x" = x0 + ((catenary k c 0 0 δ σ (l * τ)).1 - (catenary k c 0 0 δ σ 0).1) ∧
        ρ τ "y" = y0 + ((catenary k c 0 0 δ σ (l * τ)).2 - (catenary k c 0 0 δ σ 0).2) := by
  obtain ⟨q, B, hq, -, H⟩ := C71_complete_partial (luSound_cramer chainS rfl) chain_stated (o := {}) rfl (by decide) chainBvp_ok
  obtain rfl : chainQ = q := Except.ok.inj ((chainQ_ok chainS).symm.trans hq)
  obtain ⟨ν₀, ν₁, hx⟩ := chain_extremal U B hk c x0 y0 l hδ hσ
  have mv : (userOcp U id B chain).moving = ["x", "y", "theta"] := by
    simp [Ocp.moving, userOcp, chain, epsControls]
  obtain ⟨⟨ρ, hρ, -⟩, K⟩ := H U id (chain_completes U) 0 l _ _ _ _ hx (by
      intro s hs t _
      have hs : s = "theta" := by simpa [userOcp, chain, epsControls] using hs
      subst hs
      simp only [chainCurve, String.reduceEq, if_true, if_false]
      have : DifferentiableAt ℝ (fun τ => σ * (τ - c) / k) t := by fun_prop
      exact (this.arctan.const_mul δ).const_add _) (by
      intro s _ hs h2 t _
      rw [mv] at hs
      simp only [List.mem_cons, List.not_mem_nil, or_false, not_or] at hs
      have h2 : s ≠ "s" := h2
      simp only [chainCurve, hs.1, hs.2.1, hs.2.2, h2, if_false]) 0 1 l one_pos hl (by simp) (by ring)
  have nm : ∀ s ∈ ["x_0", "y_0", "s_0", "x_f", "y_f", "s_f"], s ∉ ["x", "y", "theta"] ∧ s ≠ "s" ∧ s ≠ "_lam_" ++ "x" ∧
      s ≠ "_lam_" ++ "y" ∧ s ≠ "_lam_s" ∧ s ≠ "_tau" ∧ s ≠ "_s" ∧ ¬ Reserved s := by decide +kernel
  have cst : ∀ s, s ∈ ["x_0", "y_0", "s_0", "x_f", "y_f", "s_f"] → ∀ τ, ρ τ s = chainCurve k c δ σ x0 y0 l 0 s := by
    intro s hs τ
    obtain ⟨n1, n2, n3, n4, n6, n7, n8, n9⟩ := nm s hs
    have h1 : s ∉ (userOcp U id B chain).moving := by
      rw [mv]
      exact n1
    rw [hρ.rest s h1 n2 (by
        intro x hx
        have : x.1 = "x" ∨ x.1 = "y" := by
          simp only [userOcp, chain, List.map_cons, List.map_nil, List.mem_cons, List.not_mem_nil, or_false] at hx
          rcases hx with rfl | rfl <;> simp
        rcases this with e | e <;> rw [e]
        · exact n3
        · exact n4) n6 n7 τ]
    exact hρ.plain s n9 h1 n2 n8
  have mov : ∀ s, s ∈ ["x", "y", "theta"] → ∀ τ, ρ τ s = chainCurve k c δ σ x0 y0 l (0 + l * (τ - 0)) s := by
    intro s hs τ
    exact hρ.moving s (by rw [mv]; exact hs) τ
  have lx : ∀ τ, ρ τ "_lam_x" = chainLam k c δ σ (0 + l * (τ - 0)) "x" :=
    hρ.costates ((userOcp U id B chain).rates[0]'(by simp [userOcp, chain])) (List.getElem_mem _)
  have ly : ∀ τ, ρ τ "_lam_y" = chainLam k c δ σ (0 + l * (τ - 0)) "y" :=
    hρ.costates ((userOcp U id B chain).rates[1]'(by simp [userOcp, chain])) (List.getElem_mem _)
  have snd : ∀ τ, eval (real U) (ρ τ) ((chainH.diff "theta").diff "theta") ≠ 0 := by
    intro τ
    rw [chainH_second, lx, ly, mov "theta" (by decide)]
    simp only [chainLam, chainCurve, String.reduceEq, if_true, if_false]
    obtain ⟨d1, d2⟩ := chain_direction hk c (0 + l * (τ - 0)) hδ hσ
    rw [d1, d2]
    have hp : 0 < √(k ^ 2 + (0 + l * (τ - 0) - c) ^ 2) := Real.sqrt_pos.2 (by positivity)
    have hδ2 : δ * δ = 1 := by rcases hδ with rfl | rfl <;> norm_num
    have hσ0 : σ ≠ 0 := by rcases hσ with rfl | rfl <;> norm_num
    have e : -(-(σ * δ * k) * (δ * (k / √(k ^ 2 + (0 + l * (τ - 0) - c) ^ 2))) +
        (c - (0 + l * (τ - 0))) * (σ * ((0 + l * (τ - 0) - c) / √(k ^ 2 + (0 + l * (τ - 0) - c) ^ 2)))) =
        σ * ((k ^ 2 + (0 + l * (τ - 0) - c) ^ 2) / √(k ^ 2 + (0 + l * (τ - 0) - c) ^ 2)) := by
      linear_combination (σ * k * (k / √(k ^ 2 + (0 + l * (τ - 0) - c) ^ 2))) * hδ2
    rw [e]
    exact mul_ne_zero hσ0 (div_pos (by positivity) hp).ne'
  obtain ⟨f1, f2, f3, f4, f5, f6, f8⟩ := chainQ_facts
  obtain ⟨b1, b2, b3, b4⟩ := chainBvp_facts
  have ends : ∀ τ, SmoothEnds chainQ U (ρ τ) := fun τ =>
    ⟨smooth_of_entire f3, smooth_of_entire f4, fun c hc => smooth_of_entire (f5 c hc)⟩
  have reg : Regular chainS U chainQ chainBvp 0 1 ρ := by
    refine ⟨fun t _ => ⟨smooth_of_entire f1, fun d hd => smooth_of_entire (f2 d hd)⟩, (ends 0).start, (ends 1).stop, ?_, ?_, ?_, ?_, ?_⟩
    · intro t _ u hu
      rw [f6, List.mem_singleton] at hu
      subst hu
      exact smooth_of_entire f8
    · intro t _ d hd
      refine defined_of_denoms fun e he => ?_
      rw [b1 d hd e he, eval_detE]
      simp [snd]
    · intro t _ opt ho
      rw [b3] at ho
      cases ho
    · intro t _ u hu
      rw [b2] at hu
      cases hu
    · intro om ho
      rw [b4] at ho
      cases ho
  refine ⟨ρ, K ρ hρ reg (fun h => by cases h) ?_ (fun h => by cases h), reg, ?_, ?_, ?_, ?_, ?_, ?_, ?_, ?_⟩
  · intro _ t _ v hv j hj
    rw [f6] at hv hj
    have hj : j = 0 := by simpa using hj
    subst hj
    have := hv 0 (by simp)
    rw [chainQ_ham] at this
    simpa [snd] using this
  · have e : ρ 0 "_delta_s" = l := hρ.duration rfl
    rw [e]
    exact hl
  · have e : (fun τ => ρ τ "theta") = fun τ => (1 - δ) / 2 * Real.pi + δ * Real.arctan (σ * (0 + l * (τ - 0) - c) / k) := by
      funext τ
      rw [mov "theta" (by decide)]
      simp [chainCurve]
    rw [e]
    fun_prop
  · rw [cst "x_0" (by decide)]
    simp [chainCurve]
  · rw [cst "y_0" (by decide)]
    simp [chainCurve]
  · rw [cst "s_f" (by decide)]
    simp [chainCurve]
  · rw [cst "x_f" (by decide)]
    simp [chainCurve]
  · rw [cst "y_f" (by decide)]
    simp [chainCurve]
  · intro τ _
    refine ⟨?_, ?_, ?_⟩
    · have e : ρ τ "s" = 0 + l * (τ - 0) := hρ.time τ
      rw [e]
      ring
    · rw [mov "x" (by decide)]
      simp [chainCurve]
    · rw [mov "y" (by decide)]
      simp [chainCurve]

/-- A solution of the boundary value problem of the hanging chain with these ends and this length, whose curve is this one. -/
structure Hangs (U : Name → Nat → ℝ → ℝ) (l x0 y0 xf yf : ℝ) (X Y : ℝ → ℝ) (ρ : ℝ → Env) : Prop where
  solves : Solves U chainBvp 0 1 ρ
  regular : Regular chainS U chainQ chainBvp 0 1 ρ
  length : 0 < ρ 0 "_delta_s"
  direction : ContinuousOn (fun τ => ρ τ "theta") (Set.Icc 0 1)
  constants : ρ 0 "x_0" = x0 ∧ ρ 0 "y_0" = y0 ∧ ρ 1 "x_f" = xf ∧ ρ 1 "y_f" = yf ∧ ρ 1 "s_f" = l
  curve : ∀ τ ∈ Set.Icc (0 : ℝ) 1, ρ τ "s" = l * τ ∧ ρ τ "x" = X (l * τ) ∧ ρ τ "y" = Y (l * τ)

/-- For every two points that are not one above the other and every length greater than their distance, the boundary value problem that
beluga makes of the hanging chain with its default options has a solution that is a hanging catenary, the lowest chain, and one that is
an arch, the highest chain. -/
theorem C97_exists (U : Name → Nat → ℝ → ℝ) {l x0 y0 xf yf σ : ℝ} (hl : 0 < l) (hx : x0 ≠ xf)
    (hd : (xf - x0) ^ 2 + (yf - y0) ^ 2 < l ^ 2) (hσ : σ = 1 ∨ σ = -1) :
    ∃ ρ X Y Θ, Hangs U l x0 y0 xf yf X Y ρ ∧ IsCatenary l x0 y0 xf yf σ X Y Θ := by
  obtain ⟨k, c, δ, hk, hδ, ex, ey⟩ := catenary_exists hl (sub_ne_zero.2 (Ne.symm hx)) hd hσ
  obtain ⟨ρ, s1, s2, s3, s4, s5, s6, s7, s8, s9, s10⟩ := C97_complete U hk hl c x0 y0 hδ hσ
  rw [ex, add_sub_cancel] at s8
  rw [ey, add_sub_cancel] at s9
  obtain ⟨q, hq, H⟩ := C97_solutions_partial (luSound_cramer chainS rfl) (o := {}) rfl (by decide) (fun h => by cases h) chainBvp_ok
  obtain rfl : chainQ = q := Except.ok.inj ((chainQ_ok chainS).symm.trans hq)
  obtain ⟨σ', X, Y, Θ, hσ', hc, hp⟩ := H U 0 1 ρ one_pos s1 s2 (fun _ => s3) s4 (by rw [s5, s8]; exact hx)
  rw [s5, s6, s7, s8, s9] at hc
  obtain ⟨k', c', x₁, y₁, δ', hk', hδ', G⟩ := hc.graph
  have same : σ' = σ := by
    refine catenary_sign (c := c') (x₁ := x₁) (y₁ := y₁) (c' := c) (x₁' := x0 - (catenary k c 0 0 δ σ 0).1) (y₁' := y0 - (catenary k c 0 0 δ σ 0).2) hl hk'
      hk hδ' hδ hσ' hσ ?_
    intro s hs
    have hτ : s / l ∈ Set.Icc (0 : ℝ) 1 := ⟨div_nonneg hs.1 hl.le, (div_le_one hl).2 hs.2⟩
    have e : l * (s / l) = s := mul_div_cancel₀ s hl.ne'
    obtain ⟨t1, t2, t3⟩ := s10 _ hτ
    obtain ⟨-, t4, t5, -⟩ := hp _ hτ
    rw [t1, e] at t4 t5
    rw [e] at t2 t3
    rw [← G s hs, ← t4, ← t5, t2, t3]
    simp only [catenary, Prod.mk.injEq]
    exact ⟨by ring, by ring⟩
  subst same
  refine ⟨ρ, X, Y, Θ, ⟨s1, s2, s3, s4, ⟨s5, s6, s8, s9, s7⟩, fun τ hτ => ?_⟩, hc⟩
  obtain ⟨t1, -⟩ := s10 _ hτ
  obtain ⟨-, t4, t5, -⟩ := hp _ hτ
  rw [t1] at t4 t5
  exact ⟨t1, t4, t5⟩

/-- What is claimed of the example is false: for every two points that are not one above the other and every length greater than their
distance, the boundary value problem has a solution that is no lowest chain; it is the highest one. -/
theorem C97_violated (U : Name → Nat → ℝ → ℝ) {l x0 y0 xf yf : ℝ} (hl : 0 < l) (hx : x0 ≠ xf)
    (hd : (xf - x0) ^ 2 + (yf - y0) ^ 2 < l ^ 2) :
    ∃ ρ X Y Θ, Hangs U l x0 y0 xf yf X Y ρ ∧ Chained l x0 y0 xf yf X Y Θ ∧ Highest l x0 y0 xf yf X Y ∧
      ∃ X' Y' Θ', Chained l x0 y0 xf yf X' Y' Θ' ∧ height l Y' < height l Y := by
  obtain ⟨ρ, X, Y, Θ, h1, h2⟩ := C97_exists U hl hx hd (Or.inr rfl)
  obtain ⟨-, X', Y', Θ', -, h4⟩ := C97_exists U hl hx hd (Or.inl rfl)
  refine ⟨ρ, X, Y, Θ, h1, h2.chained, h2.highest rfl, X', Y', Θ', h4.chained, ?_⟩
  obtain ⟨k1, k2⟩ := h2.highest rfl X' Y' Θ' h4.chained
  refine lt_of_le_of_ne k1 fun e => ?_
  obtain ⟨k, c, x₁, y₁, δ, hk, hδ, G⟩ := h2.graph
  obtain ⟨k', c', x₁', y₁', δ', hk', hδ', G'⟩ := h4.graph
  have := catenary_sign hl hk hk' hδ hδ' (Or.inr rfl) (Or.inl rfl) (fun s hs => by
    rw [← G s hs, ← G' s hs, (k2 e s hs).1, (k2 e s hs).2])
  norm_num at this

/-! ### A concrete case -/

/-- The end of the continuation of the example: a chain of length 3 between (0, 0) and (1, 0)
(examples/Classic/HangingChain/HangingChain.py:14-50).  There is a solution that hangs and one that does not. -/
example (U : Name → Nat → ℝ → ℝ) : (∃ ρ X Y, Hangs U 3 0 0 1 0 X Y ρ ∧ Lowest 3 0 0 1 0 X Y) ∧
    ∃ ρ X Y, Hangs U 3 0 0 1 0 X Y ρ ∧ ¬ Lowest 3 0 0 1 0 X Y := by
  constructor
  · obtain ⟨ρ, X, Y, Θ, h1, h2⟩ := C97_exists U (l := 3) (x0 := 0) (y0 := 0) (xf := 1) (yf := 0) (by norm_num) (by norm_num)
      (by norm_num) (Or.inl rfl)
    exact ⟨ρ, X, Y, h1, h2.lowest rfl⟩
  · obtain ⟨ρ, X, Y, Θ, h1, -, -, X', Y', Θ', h2, h3⟩ := C97_violated U (l := 3) (x0 := 0) (y0 := 0) (xf := 1) (yf := 0) (by norm_num)
      (by norm_num) (by norm_num)
    exact ⟨ρ, X, Y, h1, fun h => absurd (h X' Y' Θ' h2).1 (not_le.2 h3)⟩

end Beluga.E2E
