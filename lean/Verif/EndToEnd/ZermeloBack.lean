import Verif.EndToEnd.Zermelo
import Verif.EndToEnd.BrachistochroneBack

/-!
# Crossings that follow the law of refraction solve the problem (C99)

The converse of `Verif.EndToEnd.Zermelo`: crossings that follow the law of refraction with the constant that belongs to the place where they
land solve the boundary value problem that beluga makes of Zermelo's problem.
-/

namespace Beluga.E2E

open Beluga.Sym Beluga.Sym.Expr Beluga.Num Beluga.Map Beluga.Opt Beluga.Rep

/-! ### Specification -/

/-- A boat with speed `V` that starts at the origin, always heads for the other bank and follows the law of refraction with the constant `k`
in the current `d` for the time `T`. -/
structure Refracts (V : ℝ) (d : ℝ → ℝ) (k T : ℝ) (X Y Θ : ℝ → ℝ) : Prop where
  start : X 0 = 0 ∧ Y 0 = 0
  east : ∀ t ∈ Set.Icc 0 T, HasDerivAt X (V * Real.cos (Θ t)) t
  north : ∀ t ∈ Set.Icc 0 T, HasDerivAt Y (V * Real.sin (Θ t) + d (X t)) t
  smooth : ∀ t ∈ Set.Icc 0 T, DifferentiableAt ℝ Θ t
  forward : ∀ t ∈ Set.Icc 0 T, 0 < Real.cos (Θ t)
  fast : ∀ t ∈ Set.Icc 0 T, 0 < V + d (X t) * Real.sin (Θ t)
  law : ∀ t ∈ Set.Icc 0 T, Real.sin (Θ t) + k * (V + d (X t) * Real.sin (Θ t)) = 0

/-- A boat with speed `V` that starts at the origin, steers by Zermelo's equation for the heading in the current `d` and keeps to the law of
refraction with the constant `k` for the time `T`; it may turn back on the way. -/
structure Navigates (V : ℝ) (d : ℝ → ℝ) (k T : ℝ) (X Y Θ : ℝ → ℝ) : Prop where
  start : X 0 = 0 ∧ Y 0 = 0
  east : ∀ t ∈ Set.Icc 0 T, HasDerivAt X (V * Real.cos (Θ t)) t
  north : ∀ t ∈ Set.Icc 0 T, HasDerivAt Y (V * Real.sin (Θ t) + d (X t)) t
  turn : ∀ t ∈ Set.Icc 0 T, HasDerivAt Θ (Real.sin (Θ t) ^ 2 * deriv d (X t)) t
  fast : ∀ t ∈ Set.Icc 0 T, 0 < V + d (X t) * Real.sin (Θ t)
  law : ∀ t ∈ Set.Icc 0 T, Real.sin (Θ t) + k * (V + d (X t) * Real.sin (Θ t)) = 0

/-! ### Such a crossing as an extremal -/

/-- The crossing with its heading, time and constants; it lands at the distance `z` from the place asked for. -/
noncomputable def ferryCurve (V ε w z T : ℝ) (X Y Θ : ℝ → ℝ) (t : ℝ) : Env := fun s =>
  if s = "x" then X t else if s = "y" then Y t else if s = "theta" then Θ t else if s = "t" then t else if s = "V" then V
  else if s = "epsilon" then ε else if s = "y_f_width" then w else if s = "x_f" then X T else if s = "y_f" then Y T - z else 0

/-- The size of the costates. -/
noncomputable def ferrySize (V k : ℝ) (d X : ℝ → ℝ) (t : ℝ) : ℝ := -((1 + k * d (X t)) / V)

/-- The costates of the crossing. -/
noncomputable def ferryLam (V k : ℝ) (d X Θ : ℝ → ℝ) (t : ℝ) : Name → ℝ := fun s =>
  if s = "x" then ferrySize V k d X t * Real.cos (Θ t) else if s = "y" then k else 0

theorem zermelo_start (U : Name → Nat → ℝ → ℝ) (B : ℝ → ℝ → ℝ → ℝ → ℝ) (ν : Nat → ℝ) (σ : Env) :
    lagrange (userOcp U id B zermelo).costInitial (userOcp U id B zermelo).initial ν σ = ν 0 * σ "x" + (ν 1 * σ "y" + ν 2 * σ "t") := by
  simp [lagrange, userOcp, zermelo, penalties, Con.twoSided, List.filter, eval]

theorem zermelo_stop (U : Name → Nat → ℝ → ℝ) {B : ℝ → ℝ → ℝ → ℝ → ℝ} (hB : Barriers B) (ν : Nat → ℝ) (σ : Env) :
    lagrange (userOcp U id B zermelo).costTerminal (userOcp U id B zermelo).terminal ν σ =
      miss (σ "epsilon") (σ "y_f_width") (σ "y" - σ "y_f") + ν 0 * (σ "x" - σ "x_f") := by
  rw [← barrier_miss hB]
  simp [lagrange, userOcp, zermelo, Con.twoSided, penalties, penalty, eval, eval_sub]

theorem Navigates.size {V k T : ℝ} {d X Y Θ : ℝ → ℝ} (h : Navigates V d k T X Y Θ) (hV : 0 < V) {t : ℝ} (ht : t ∈ Set.Icc 0 T) :
    ferrySize V k d X t * V = -(1 + k * d (X t)) ∧ k = ferrySize V k d X t * Real.sin (Θ t) := by
  have e : ferrySize V k d X t * V = -(1 + k * d (X t)) := by
    rw [ferrySize]
    field_simp
  refine ⟨e, ?_⟩
  have := h.law t ht
  refine mul_right_cancel₀ hV.ne' ?_
  linear_combination this - Real.sin (Θ t) * e

theorem Navigates.size_neg {V k T : ℝ} {d X Y Θ : ℝ → ℝ} (h : Navigates V d k T X Y Θ) (hV : 0 < V) {t : ℝ} (ht : t ∈ Set.Icc 0 T) : ferrySize V k d X t < 0 := by
  obtain ⟨e1, e2⟩ := h.size hV ht
  have e : 1 + ferrySize V k d X t * (V + d (X t) * Real.sin (Θ t)) = 0 := by linear_combination e1 - d (X t) * e2
  by_contra hn
  have := mul_nonneg (not_lt.1 hn) (h.fast t ht).le
  linarith

theorem Navigates.extremal {U : Name → Nat → ℝ → ℝ} (hU : ∀ j v, HasDerivAt (U "drift_y" j) (U "drift_y" (j + 1) v) v)
    {B : ℝ → ℝ → ℝ → ℝ → ℝ} (hB : Barriers B) {V k ε w z T : ℝ} {X Y Θ : ℝ → ℝ} (h : Navigates V (U "drift_y" 0) k T X Y Θ) (hV : 0 < V)
    (hT : 0 < T) (hz : HasDerivAt (miss ε w) k z) :
    Extremal (userOcp U id B zermelo) 0 T (ferryCurve V ε w z T X Y Θ) (ferryLam V k (U "drift_y" 0) X Θ)
      (fun i => if i = 2 then 0 else -ferryLam V k (U "drift_y" 0) X Θ 0 (["x", "y"].getD i ""))
      (fun _ => ferryLam V k (U "drift_y" 0) X Θ T "x") := by
  have e1 : ∀ v, (real U).fn .cos v = Real.cos v := fun _ => rfl
  have e2 : ∀ v, (real U).fn .sin v = Real.sin v := fun _ => rfl
  have e3 : ∀ v, (real U).fn (.user "drift_y" 0) v = U "drift_y" 0 v := fun _ => rfl
  have ham0 : ∀ t ∈ Set.Icc 0 T, (userOcp U id B zermelo).ham (ferryLam V k (U "drift_y" 0) X Θ t) (ferryCurve V ε w z T X Y Θ t) = 0 := by
    intro t ht
    rw [zermelo_ham]
    simp only [ferryLam, ferryCurve, String.reduceEq, if_true, if_false]
    obtain ⟨k1, k2⟩ := h.size hV ht
    have sc := Real.sin_sq_add_cos_sq (Θ t)
    linear_combination k1 + ferrySize V k (U "drift_y" 0) X t * V * sc + V * Real.sin (Θ t) * k2
  have dlx : ∀ t ∈ Set.Icc 0 T, HasDerivAt (fun τ => ferrySize V k (U "drift_y" 0) X τ * Real.cos (Θ τ)) (-(k * U "drift_y" 1 (X t))) t := by
    intro t ht
    have hθ := h.turn t ht
    rw [(hU 0 (X t)).deriv] at hθ
    have dm : HasDerivAt (ferrySize V k (U "drift_y" 0) X) (-(k * (U "drift_y" 1 (X t) * (V * Real.cos (Θ t))) / V)) t :=
      (((((HasDerivAt.comp t (hU 0 (X t)) (h.east t ht)).const_mul k).const_add 1).div_const V).neg)
    refine (dm.mul hθ.cos).congr_deriv ?_
    have k2 := (h.size hV ht).2
    have sc := Real.sin_sq_add_cos_sq (Θ t)
    have : -(k * (U "drift_y" 1 (X t) * (V * Real.cos (Θ t))) / V) = -(k * U "drift_y" 1 (X t) * Real.cos (Θ t)) := by field_simp
    rw [this]
    linear_combination (-k) * U "drift_y" 1 (X t) * sc + U "drift_y" 1 (X t) * Real.sin (Θ t) ^ 2 * k2
  refine ⟨?_, ?_, ?_, ?_, ?_, ?_, ?_, ?_, ?_, ?_, ?_⟩
  · intro t _
    simp [userOcp, zermelo, ferryCurve]
  · intro s hs t _
    simp only [userOcp, zermelo, List.mem_cons, List.not_mem_nil, or_false] at hs
    rcases hs with rfl | rfl | rfl | rfl | rfl <;> simp [ferryCurve]
  · intro p hp t ht
    simp only [userOcp, zermelo, List.map_cons, List.map_nil, List.mem_cons, List.not_mem_nil, or_false] at hp
    rcases hp with rfl | rfl
    · simp only [ferryCurve, String.reduceEq, if_true, if_false, id, eval, e1]
      exact h.east t ht
    · simp only [ferryCurve, String.reduceEq, if_true, if_false, id, eval, e2, e3]
      exact h.north t ht
  · intro p hp t ht
    simp only [userOcp, zermelo, List.map_cons, List.map_nil, List.mem_cons, List.not_mem_nil, or_false] at hp
    rcases hp with rfl | rfl
    · refine ⟨k * U "drift_y" 1 (X t), ?_, ?_⟩
      · simp only [HasPartial, zermelo_ham, Function.update_apply, String.reduceEq, if_false, if_true]
        simp only [ferryLam, ferryCurve, String.reduceEq, if_true, if_false]
        exact (((((hU 0 (X t))).const_add _).const_mul _).const_add _).const_add _
      · simp only [ferryLam, if_true]
        exact dlx t ht
    · refine ⟨0, ?_, ?_⟩
      · simp only [HasPartial, zermelo_ham, Function.update_apply, String.reduceEq, if_false]
        exact hasDerivAt_const _ _
      · simp only [ferryLam, String.reduceEq, if_true, if_false, neg_zero]
        exact hasDerivAt_const _ _
  · intro u hu t ht
    have hu : u = "theta" := by simpa [userOcp, zermelo, epsControls] using hu
    subst hu
    simp only [HasPartial, zermelo_ham, Function.update_apply, String.reduceEq, if_false, if_true]
    simp only [ferryLam, ferryCurve, String.reduceEq, if_true, if_false]
    refine ((((((Real.hasDerivAt_cos _).const_mul _).const_mul _).add ((((Real.hasDerivAt_sin _).const_mul _).add_const _).const_mul _))).const_add
      _).congr_deriv ?_
    linear_combination V * Real.cos (Θ t) * (h.size hV ht).2
  · intro c hc
    simp only [userOcp, zermelo, Con.twoSided, List.filter, Option.isSome, Bool.and_false, Bool.not_false, List.map_cons, List.map_nil,
      List.mem_cons, List.not_mem_nil, or_false] at hc
    rcases hc with rfl | rfl | rfl <;> simp [ferryCurve, eval, h.start]
  · intro c hc
    simp only [userOcp, zermelo, Con.twoSided, List.filter, Option.isSome, Bool.and_false, Bool.and_true, Bool.not_false, Bool.not_true,
      List.map_cons, List.map_nil, List.mem_cons, List.not_mem_nil, or_false] at hc
    subst hc
    simp [ferryCurve, eval]
  · intro p hp
    simp only [userOcp, zermelo, List.map_cons, List.map_nil, List.mem_cons, List.not_mem_nil, or_false] at hp
    rcases hp with rfl | rfl
    all_goals simp only [HasPartial, zermelo_start, Function.update_apply, String.reduceEq, if_true, if_false]
    · exact (((hasDerivAt_id _).const_mul _).add_const _).congr_deriv (by simp)
    · exact ((((hasDerivAt_id _).const_mul _).add_const _).const_add _).congr_deriv (by simp)
  · intro p hp
    simp only [userOcp, zermelo, List.map_cons, List.map_nil, List.mem_cons, List.not_mem_nil, or_false] at hp
    rcases hp with rfl | rfl
    all_goals simp only [HasPartial, zermelo_stop U hB, Function.update_apply, String.reduceEq, if_true, if_false]
    · exact ((((hasDerivAt_id _).sub_const _).const_mul _).const_add _).congr_deriv (by simp)
    · simp only [ferryCurve, ferryLam, String.reduceEq, if_true, if_false]
      have k1 : HasDerivAt (miss ε w) k (Y T - (Y T - z)) := by rwa [sub_sub_cancel]
      exact (HasDerivAt.comp_sub_const (Y T) (Y T - z) k1).add_const _
  · rw [ham0 0 ⟨le_refl _, hT.le⟩]
    show HasPartial _ "t" _ _
    simp only [HasPartial, zermelo_start, Function.update_apply, String.reduceEq, if_true, if_false]
    exact ((((hasDerivAt_id _).const_mul _).const_add _).const_add _).congr_deriv (by simp)
  · rw [ham0 T ⟨hT.le, le_refl _⟩]
    show HasPartial _ "t" _ _
    simp only [HasPartial, zermelo_stop U hB, Function.update_apply, String.reduceEq, if_false]
    exact (hasDerivAt_const _ _).congr_deriv (by simp)

/-- Where it heads for the other bank, a boat that follows the law of refraction steers by Zermelo's equation. -/
theorem Refracts.navigates {V k T : ℝ} {d X Y Θ : ℝ → ℝ} (hd : Differentiable ℝ d) (h : Refracts V d k T X Y Θ) (hV : 0 < V) (hT : 0 < T) :
    Navigates V d k T X Y Θ := by
  refine ⟨h.start, h.east, h.north, fun t ht => ?_, h.fast, h.law⟩
  have size : ∀ τ ∈ Set.Icc 0 T, ferrySize V k d X τ * V = -(1 + k * d (X τ)) ∧ k = ferrySize V k d X τ * Real.sin (Θ τ) := by
    intro τ hτ
    have e : ferrySize V k d X τ * V = -(1 + k * d (X τ)) := by
      rw [ferrySize]
      field_simp
    refine ⟨e, mul_right_cancel₀ hV.ne' ?_⟩
    linear_combination h.law τ hτ - Real.sin (Θ τ) * e
  obtain ⟨θ', hθ⟩ : ∃ θ', HasDerivAt Θ θ' t := ⟨_, (h.smooth t ht).hasDerivAt⟩
  have dm : HasDerivAt (ferrySize V k d X) (-(k * (deriv d (X t) * (V * Real.cos (Θ t))) / V)) t :=
    (((((HasDerivAt.comp t (hd (X t)).hasDerivAt (h.east t ht)).const_mul k).const_add 1).div_const V).neg)
  have dk : HasDerivWithinAt (fun _ : ℝ => k) (-(k * (deriv d (X t) * (V * Real.cos (Θ t))) / V) * Real.sin (Θ t) +
      ferrySize V k d X t * (Real.cos (Θ t) * θ')) (Set.Icc 0 T) t :=
    (dm.mul hθ.sin).hasDerivWithinAt.congr (fun τ hτ => (size τ hτ).2) (size t ht).2
  have z0 := (uniqueDiffOn_Icc hT t ht).eq_deriv _ dk (hasDerivWithinAt_const t _ k)
  refine hθ.congr_deriv ?_
  obtain ⟨k1, k2⟩ := size t ht
  have m0 : ferrySize V k d X t ≠ 0 := by
    intro e
    rw [e] at k1 k2
    rw [zero_mul] at k1 k2
    subst k2
    norm_num at k1
  have hc := (h.forward t ht).ne'
  refine mul_left_cancel₀ m0 (mul_right_cancel₀ hc ?_)
  have : -(k * (deriv d (X t) * (V * Real.cos (Θ t))) / V) * Real.sin (Θ t) =
      -(k * deriv d (X t) * Real.cos (Θ t) * Real.sin (Θ t)) := by field_simp
  rw [this] at z0
  linear_combination z0 + deriv d (X t) * Real.cos (Θ t) * Real.sin (Θ t) * k2

/-! ### What beluga makes of the problem -/

/-- An expression without logarithms and roots, and with no function of the user but the current. -/
def tame : Expr → Bool
  | num _ | pi | sym _ => true
  | add a b | mul a b => tame a && tame b
  | inv a => tame a
  | pow a _ => tame a
  | fn f a => tame a && (match f with | .sin | .cos | .exp | .atan => true | .user n _ => n == "drift_y" | _ => false)

theorem smooth_of_tame {U : Name → Nat → ℝ → ℝ} (hU : ∀ j v, HasDerivAt (U "drift_y" j) (U "drift_y" (j + 1) v) v) {ρ : Name → ℝ} :
    ∀ {e : Expr}, tame e = true → (∀ d ∈ denoms e, eval (real U) ρ d ≠ 0) → Smooth U ρ e
  | num _, _, _ | pi, _, _ | sym _, _, _ => trivial
  | add a b, h, hd | mul a b, h, hd => by
    simp only [tame, Bool.and_eq_true] at h
    exact ⟨smooth_of_tame hU h.1 fun d hm => hd d (List.mem_append_left _ hm),
      smooth_of_tame hU h.2 fun d hm => hd d (List.mem_append_right _ hm)⟩
  | inv a, h, hd => ⟨smooth_of_tame hU (e := a) h fun d hm => hd d (List.mem_cons_of_mem _ hm), hd a List.mem_cons_self⟩
  | pow a _, h, hd => smooth_of_tame hU (e := a) h hd
  | fn f a, h, hd => by
    simp only [tame, Bool.and_eq_true] at h
    refine ⟨smooth_of_tame hU h.1 hd, ?_⟩
    have h2 := h.2
    cases f with
    | user n j =>
      have : n = "drift_y" := by simpa using h2
      subst this
      exact hU j _
    | log => cases h2
    | sqrt => cases h2
    | _ => trivial

def zermQ : Prob := match primal brachS zermelo with
  | .ok p => p
  | .error _ => {}

theorem zermQ_ok : primal brachS zermelo = .ok zermQ := by
  have : (match primal brachS zermelo with | .ok _ => true | .error _ => false) = true := by decide +kernel
  rw [zermQ]
  cases h : primal brachS zermelo with
  | ok p => rfl
  | error e => rw [h] at this; cases this

/-- The boundary value problem. -/
def zermBvp : Prob := match indirect brachS {} zermelo with
  | .ok p => p
  | .error _ => {}

theorem zermBvp_ok : indirect brachS {} zermelo = .ok zermBvp := by
  have : (match indirect brachS {} zermelo with | .ok _ => true | .error _ => false) = true := by decide +kernel
  rw [zermBvp]
  cases h : indirect brachS {} zermelo with
  | ok p => rfl
  | error e => rw [h] at this; cases this

/-- The Hamiltonian. -/
def zermH : Expr := hamiltonianOf 1 [⟨"x", sym "V" * fn .cos (sym "theta")⟩,
  ⟨"y", sym "V" * fn .sin (sym "theta") + fn (.user "drift_y" 0) (sym "x")⟩, ⟨"t", 1⟩]

/-- The width of the place to land, as the penalty has it, and the cosine in the penalty. -/
def zermWidth : Expr := sym "y_f_width" - -sym "y_f_width"

def zermSecant : Expr := fn .cos (Expr.pi / 2 * (2 * (sym "y" - sym "y_f") - sym "y_f_width" - -sym "y_f_width") / zermWidth)

theorem zermQ_facts : (tame zermQ.costPath = true ∧ denoms zermQ.costPath = []) ∧ (∀ d ∈ zermQ.states, tame d.eom = true ∧ denoms d.eom = []) ∧
    (tame zermQ.costInitial = true ∧ denoms zermQ.costInitial = []) ∧
    (tame zermQ.costTerminal = true ∧ ∀ e ∈ denoms zermQ.costTerminal, e = 2 ∨ e = zermWidth ∨ e = zermSecant) ∧
    (∀ c ∈ zermQ.initial ++ zermQ.terminal, tame c.expr = true ∧ denoms c.expr = []) ∧ zermQ.controls = ["theta"] ∧
    hexpr zermQ = zermH ∧ tame ((hexpr zermQ).diff "theta") = true ∧ denoms ((hexpr zermQ).diff "theta") = [] := by decide +kernel

theorem zermBvp_facts : (∀ d ∈ zermBvp.states, ∀ e ∈ denoms d.eom, e = detE 1 fun _ _ => (zermH.diff "theta").diff "theta") ∧
    zermBvp.controls = [] ∧ zermBvp.controlLaw = [] ∧ zermBvp.omega = none := by decide +kernel

theorem zermH_second {U : Name → Nat → ℝ → ℝ} {σ : Env} : eval (real U) σ ((zermH.diff "theta").diff "theta") =
    -(σ "V" * (σ "_lam_x" * Real.cos (σ "theta") + σ "_lam_y" * Real.sin (σ "theta"))) := by
  have e1 : ∀ v, (real U).fn .cos v = Real.cos v := fun _ => rfl
  have e2 : ∀ v, (real U).fn .sin v = Real.sin v := fun _ => rfl
  simp [zermH, hamiltonianOf, lamName, diff, dfn, eval, e1, e2]
  ring

theorem zermWidth_value {U : Name → Nat → ℝ → ℝ} {σ : Env} : eval (real U) σ zermWidth = 2 * σ "y_f_width" := by
  simp [zermWidth, eval]
  ring

theorem zermSecant_value {U : Name → Nat → ℝ → ℝ} {σ : Env} : eval (real U) σ zermSecant =
    Real.cos (Real.pi / 2 * ((σ "y" - σ "y_f") / σ "y_f_width")) := by
  have e1 : ∀ v, (real U).fn .cos v = Real.cos v := fun _ => rfl
  have e2 : (real U).pi = Real.pi := rfl
  simp [zermSecant, zermWidth, eval, e1, e2]
  congr 1
  rw [← two_mul, mul_div_assoc, mul_div_mul_left _ _ two_ne_zero]

/-! ### Properties -/

/-- Every crossing that steers by Zermelo's equation, with the constant that belongs to the distance from the place asked for at which it
lands, is a solution of the boundary value problem that beluga makes of Zermelo's problem with its default options, for every current and
every speed. -/
theorem C99_complete {U : Name → Nat → ℝ → ℝ} (hU : ∀ j v, HasDerivAt (U "drift_y" j) (U "drift_y" (j + 1) v) v) {V k ε w z T : ℝ}
    {X Y Θ : ℝ → ℝ} (h : Navigates V (U "drift_y" 0) k T X Y Θ) (hV : 0 < V) (hT : 0 < T) (near : |z| < w)
    (hz : HasDerivAt (miss ε w) k z) :
    ∃ ρ, Solves U zermBvp 0 1 ρ ∧ Regular brachS U zermQ zermBvp 0 1 ρ ∧ 0 < ρ 0 "_delta_t" ∧
      (∀ t ∈ Set.Icc (0 : ℝ) 1, DifferentiableAt ℝ (fun τ => ρ τ "theta") t) ∧
      (∀ τ, ρ τ "V" = V ∧ ρ τ "epsilon" = ε ∧ ρ τ "y_f_width" = w ∧ ρ τ "x_f" = X T ∧ ρ τ "y_f" = Y T - z) ∧
      ∀ τ, ρ τ "t" = T * τ ∧ ρ τ "x" = X (T * τ) ∧ ρ τ "y" = Y (T * τ) ∧ ρ τ "theta" = Θ (T * τ) := by
  obtain ⟨q, B, hq, hB, H⟩ := C71_complete_partial (luSound_cramer brachS rfl) zermelo_stated (o := {}) rfl (by decide) zermBvp_ok
  obtain rfl : zermQ = q := Except.ok.inj (zermQ_ok.symm.trans hq)
  have hx := h.extremal hU hB hV hT hz
  have mv : (userOcp U id B zermelo).moving = ["x", "y", "theta"] := by
    simp [Ocp.moving, userOcp, zermelo, epsControls]
  obtain ⟨⟨ρ, hρ, -⟩, K⟩ := H U id (zermelo_completes U) 0 T _ _ _ _ hx (by
      intro s hs t ht
      have hs : s = "theta" := by simpa [userOcp, zermelo, epsControls] using hs
      subst hs
      simp only [ferryCurve, String.reduceEq, if_true, if_false]
      exact (h.turn t ht).differentiableAt) (by
      intro s _ hs h2 t _
      rw [mv] at hs
      simp only [List.mem_cons, List.not_mem_nil, or_false, not_or] at hs
      have h2 : s ≠ "t" := h2
      simp only [ferryCurve, hs.1, hs.2.1, hs.2.2, h2, if_false]) 0 1 T one_pos hT (by simp) (by ring)
  have nm : ∀ s ∈ ["V", "x_f", "y_f", "y_f_width", "epsilon"], s ∉ ["x", "y", "theta"] ∧ s ≠ "t" ∧ s ≠ "_lam_" ++ "x" ∧ s ≠ "_lam_" ++ "y" ∧
      s ≠ "_lam_t" ∧ s ≠ "_tau" ∧ s ≠ "_t" ∧ ¬ Reserved s := by decide +kernel
  have cst : ∀ s, s ∈ ["V", "x_f", "y_f", "y_f_width", "epsilon"] → ∀ τ, ρ τ s = ferryCurve V ε w z T X Y Θ 0 s := by
    intro s hs τ
    obtain ⟨n1, n2, n3, n4, n6, n7, n8, n9⟩ := nm s hs
    have h1 : s ∉ (userOcp U id B zermelo).moving := by
      rw [mv]
      exact n1
    rw [hρ.rest s h1 n2 (by
        intro x hx
        have : x.1 = "x" ∨ x.1 = "y" := by
          simp only [userOcp, zermelo, List.map_cons, List.map_nil, List.mem_cons, List.not_mem_nil, or_false] at hx
          rcases hx with rfl | rfl <;> simp
        rcases this with e | e <;> rw [e]
        · exact n3
        · exact n4) n6 n7 τ]
    exact hρ.plain s n9 h1 n2 n8
  have mov : ∀ s, s ∈ ["x", "y", "theta"] → ∀ τ, ρ τ s = ferryCurve V ε w z T X Y Θ (0 + T * (τ - 0)) s := by
    intro s hs τ
    exact hρ.moving s (by rw [mv]; exact hs) τ
  have lx : ∀ τ, ρ τ "_lam_x" = ferryLam V k (U "drift_y" 0) X Θ (0 + T * (τ - 0)) "x" :=
    hρ.costates ((userOcp U id B zermelo).rates[0]'(by simp [userOcp, zermelo])) (List.getElem_mem _)
  have ly : ∀ τ, ρ τ "_lam_y" = ferryLam V k (U "drift_y" 0) X Θ (0 + T * (τ - 0)) "y" :=
    hρ.costates ((userOcp U id B zermelo).rates[1]'(by simp [userOcp, zermelo])) (List.getElem_mem _)
  have at' : ∀ τ ∈ Set.Icc (0 : ℝ) 1, T * τ ∈ Set.Icc 0 T := fun τ hτ => ⟨mul_nonneg hT.le hτ.1, by nlinarith [hτ.2]⟩
  have snd : ∀ τ ∈ Set.Icc (0 : ℝ) 1, 0 < eval (real U) (ρ τ) ((zermH.diff "theta").diff "theta") := by
    intro τ hτ
    have ht : 0 + T * (τ - 0) ∈ Set.Icc 0 T := by
      rw [zero_add, sub_zero]
      exact at' τ hτ
    rw [zermH_second, lx, ly, mov "theta" (by decide), cst "V" (by decide)]
    simp only [ferryLam, ferryCurve, String.reduceEq, if_true, if_false]
    generalize 0 + T * (τ - 0) = t at ht
    have k1 := (h.size hV ht).2
    have sc := Real.sin_sq_add_cos_sq (Θ t)
    have e : ferrySize V k (U "drift_y" 0) X t * Real.cos (Θ t) * Real.cos (Θ t) + k * Real.sin (Θ t) = ferrySize V k (U "drift_y" 0) X t := by
      linear_combination ferrySize V k (U "drift_y" 0) X t * sc + Real.sin (Θ t) * k1
    rw [e]
    have := mul_pos hV (neg_pos.2 (h.size_neg hV ht))
    linarith
  have hw : 0 < w := (abs_nonneg z).trans_lt near
  obtain ⟨f1, f2, f3, f4, f5, f6, f7, f8, f9⟩ := zermQ_facts
  obtain ⟨b1, b2, b3, b4⟩ := zermBvp_facts
  have width : ∀ τ, eval (real U) (ρ τ) zermWidth ≠ 0 := by
    intro τ
    rw [zermWidth_value, cst "y_f_width" (by decide)]
    simp only [ferryCurve, String.reduceEq, if_true, if_false]
    positivity
  have secant : ∀ τ, eval (real U) (ρ τ) zermSecant = Real.cos (Real.pi / 2 * ((Y (T * τ) - (Y T - z)) / w)) := by
    intro τ
    rw [zermSecant_value, cst "y_f_width" (by decide), cst "y_f" (by decide), mov "y" (by decide)]
    simp only [ferryCurve, String.reduceEq, if_true, if_false]
    rw [show (0 : ℝ) + T * (τ - 0) = T * τ by ring]
  have start : SmoothStart zermQ U (ρ 0) :=
    ⟨smooth_of_tame hU f3.1 (by simp [f3.2]), fun c hc => smooth_of_tame hU (f5 c (List.mem_append_left _ hc)).1 (by
      simp [(f5 c (List.mem_append_left _ hc)).2])⟩
  have stop : SmoothStop zermQ U (ρ 1) := by
    refine ⟨smooth_of_tame hU f4.1 fun d hd => ?_, fun c hc => smooth_of_tame hU (f5 c (List.mem_append_right _ hc)).1 (by
      simp [(f5 c (List.mem_append_right _ hc)).2])⟩
    rcases f4.2 d hd with rfl | rfl | rfl
    · rw [eval_two]
      exact two_ne_zero
    · exact width 1
    · rw [secant, mul_one, sub_sub_cancel]
      obtain ⟨n1, n2⟩ := abs_lt.1 near
      have u1 : -1 < z / w := by
        rw [lt_div_iff₀ hw]
        linarith
      have u2 : z / w < 1 := by
        rw [div_lt_iff₀ hw]
        linarith
      refine (Real.cos_pos_of_mem_Ioo ⟨?_, ?_⟩).ne' <;> nlinarith [Real.pi_pos]
  have reg : Regular brachS U zermQ zermBvp 0 1 ρ := by
    refine ⟨fun t _ => ⟨smooth_of_tame hU f1.1 (by simp [f1.2]), fun d hd => smooth_of_tame hU (f2 d hd).1 (by simp [(f2 d hd).2])⟩,
      start, stop, ?_, ?_, ?_, ?_, ?_⟩
    · intro t _ u hu
      rw [f6, List.mem_singleton] at hu
      subst hu
      exact smooth_of_tame hU f8 (by simp [f9])
    · intro t ht d hd
      refine defined_of_denoms fun e he => ?_
      rw [b1 d hd e he, eval_detE]
      simpa using (snd t ht).ne'
    · intro t _ opt ho
      rw [b3] at ho
      cases ho
    · intro t _ u hu
      rw [b2] at hu
      cases hu
    · intro om ho
      rw [b4] at ho
      cases ho
  have theta : ∀ τ, ρ τ "theta" = Θ (T * τ) := by
    intro τ
    rw [mov "theta" (by decide)]
    simp [ferryCurve]
  refine ⟨ρ, K ρ hρ reg (fun h => by cases h) ?_ (fun h => by cases h), reg, ?_, ?_, ?_, ?_⟩
  · intro _ t ht v hv j hj
    rw [f6] at hv hj
    have hj : j = 0 := by simpa using hj
    subst hj
    have := hv 0 (by simp)
    rw [f7] at this
    simpa [(snd t ht).ne'] using this
  · have e : ρ 0 "_delta_t" = T := hρ.duration rfl
    rw [e]
    exact hT
  · intro t ht
    rw [show (fun τ => ρ τ "theta") = fun τ => Θ (T * τ) from funext theta]
    exact DifferentiableAt.comp (g := Θ) (f := fun τ => T * τ) t (h.turn _ (at' t ht)).differentiableAt (by fun_prop)
  · intro τ
    rw [cst "V" (by decide), cst "epsilon" (by decide), cst "y_f_width" (by decide), cst "x_f" (by decide), cst "y_f" (by decide)]
    simp [ferryCurve]
  · intro τ
    refine ⟨?_, ?_, ?_, theta τ⟩
    · have e : ρ τ "t" = 0 + T * (τ - 0) := hρ.time τ
      rw [e]
      ring
    · rw [mov "x" (by decide)]
      simp [ferryCurve]
    · rw [mov "y" (by decide)]
      simp [ferryCurve]

/-! ### A concrete case -/

/-- The current of the example (examples/Classic/ZermelosProblem/ZermelosProblem.py:11-12) and its derivatives. -/
noncomputable def river : Name → Nat → ℝ → ℝ := fun _ j => iteratedDeriv j fun x => ((x - 5) ^ 4 - 625) / 625

theorem river_zero (n : Name) (x : ℝ) : river n 0 x = ((x - 5) ^ 4 - 625) / 625 := by
  rw [river, iteratedDeriv_zero]

theorem river_smooth (n : Name) (j : Nat) (v : ℝ) : HasDerivAt (river n j) (river n (j + 1) v) v := by
  have c : ContDiff ℝ (j + 1 : ℕ) fun x : ℝ => ((x - 5) ^ 4 - 625) / 625 := by fun_prop
  have := c.differentiable_iteratedDeriv j (by exact_mod_cast Nat.lt_succ_self j)
  simp only [river, iteratedDeriv_succ]
  exact (this v).hasDerivAt

theorem miss_flat (ε w : ℝ) : HasDerivAt (miss ε w) 0 0 := by
  have lin : HasDerivAt (fun z => Real.pi / 2 * (z / w)) (Real.pi / 2 * (1 / w)) 0 := ((hasDerivAt_id _).div_const w).const_mul _
  have k := (((lin.cos.inv (by simp)).sub_const 1).const_mul ε)
  have e : miss ε w = fun z => ε * ((fun z => Real.cos (Real.pi / 2 * (z / w)))⁻¹ z - 1) := by
    funext z
    simp [miss]
  rw [e]
  exact k.congr_deriv (by simp)

theorem straight_across : Refracts 10 (river "drift_y" 0) 0 1 (fun t => 10 * t) (fun t => ((10 * t - 5) ^ 5 + 3125) / 31250 - t) (fun _ => 0) where
  start := by norm_num
  east := fun t _ => by simpa using (hasDerivAt_id t).const_mul 10
  north := fun t _ => by
    rw [river_zero]
    have := ((((((hasDerivAt_id t).const_mul 10).sub_const 5).pow 5).add_const 3125).div_const 31250).sub (hasDerivAt_id t)
    refine this.congr_deriv ?_
    simp only [id, Real.sin_zero]
    push_cast
    ring
  smooth := fun t _ => by fun_prop
  forward := fun t _ => by simp
  fast := fun t _ => by simp
  law := fun t _ => by simp

/-- The river of the example, ten wide, and a boat with the speed ten that may land within two of the place (10, -0.8): heading straight for
the other bank is a solution, and no crossing takes less time, up to the penalty for the distance. -/
example : ∃ ρ, Solves river zermBvp 0 1 ρ ∧ ρ 1 "t" = 1 ∧ ρ 1 "x" = 10 ∧ ρ 1 "y" = -0.8 ∧
    ∀ T X Y Θ, 0 ≤ T → Crosses 10 (fun x => ((x - 5) ^ 4 - 625) / 625) 10 T X Y Θ → |Y T + 0.8| < 2 →
      1 ≤ T + miss 0.01 2 (Y T + 0.8) := by
  obtain ⟨ρ, s1, s2, s3, s4, s5, s6⟩ := C99_complete (river_smooth "drift_y")
    (straight_across.navigates (fun v => (river_smooth "drift_y" 0 v).differentiableAt) (by norm_num) one_pos) (ε := 0.01) (w := 2) (z := 0) (by norm_num)
    (by norm_num) (by norm_num) (miss_flat _ _)
  obtain ⟨v1, v2, v3, v4, v5⟩ := s5 1
  obtain ⟨q, hq, H⟩ := C99_solutions_partial (luSound_cramer brachS rfl) (o := {}) rfl (by decide) (fun h => by cases h) zermBvp_ok
  obtain rfl : zermQ = q := Except.ok.inj (zermQ_ok.symm.trans hq)
  have e : river "drift_y" 0 = fun x => ((x - 5) ^ 4 - 625) / 625 := funext (river_zero _)
  have y1 : ρ 1 "y" = -0.8 := by
    rw [(s6 1).2.2.1]
    norm_num
  obtain ⟨-, -, K⟩ := H river 0 1 ρ one_pos s1 s2 (fun _ => s3) (by rw [e]; fun_prop) s4 (by rw [v1]; norm_num) (by rw [v2]; norm_num)
    (fun t _ => by simp [(s6 t).2.2.2]) (fun t _ => by simp [(s6 t).2.2.2, v1]) (by rw [y1, v5, v3]; norm_num)
  refine ⟨ρ, s1, by rw [(s6 1).1]; norm_num, by rw [(s6 1).2.1]; norm_num, y1, ?_⟩
  intro T X Y Θ hT hX hY
  have k := K T X Y Θ hT (by rw [v1, v4, e]; norm_num; exact hX) (by rw [v5, v3]; norm_num; norm_num at hY; exact hY)
  rw [(s6 1).1, y1, v5, v2, v3] at k
  norm_num [miss] at k ⊢
  exact k

end Beluga.E2E
