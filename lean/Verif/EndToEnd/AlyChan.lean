import Mathlib.Analysis.SpecialFunctions.Trigonometric.ArctanDeriv
import Mathlib.Analysis.Real.Pi.Bounds
import Verif.EndToEnd.BrysonUnique
import Verif.EndToEnd.Zermelo

/-!
# The Aly-Chan example: optimal up to the activator (C101)

The problem of examples/Classic/AlyChan/AlyChan.py.  The cost is not convex, and there is no cost of the control; the returned controls are
nevertheless the cheapest of all up to a multiple of the activator, because the time span of the example is just short enough.
-/

namespace Beluga.E2E

open Beluga.Sym Beluga.Sym.Expr Beluga.Num Beluga.Map Beluga.Opt Beluga.Rep

/-- The problem (examples/Classic/AlyChan/AlyChan.py:13-41). -/
def alyChan : Prob := {
  ind := "t"
  states := [⟨"x1", sym "x2"⟩, ⟨"x2", sym "u"⟩, ⟨"x3", 1 / 2 * (pow (sym "x2") 2 - pow (sym "x1") 2)⟩]
  controls := ["u"]
  constants := ["x1_0", "x2_0", "x3_0", "epsilon1", "u_max"]
  costTerminal := sym "x3"
  initial := [{ expr := sym "x1" - sym "x1_0" }, { expr := sym "x2" - sym "x2_0" }, { expr := sym "x3" - sym "x3_0" }, { expr := sym "t" }]
  terminal := [{ expr := sym "t" - num (31415 / 10000) / 2 }]
  path := [
    { expr := sym "u", lower := some (-sym "u_max"), upper := some (sym "u_max"), activator := some (sym "epsilon1"), method := .utm }] }

/-! ### Specification -/

/-- A point with place `X`, velocity `V` and acceleration `Z` of size at most `N`, that starts at `p` with the velocity `q`; `C` is `r` and
half of the integral of the square of the velocity less the square of the place. -/
structure Maneuvers (p q r N T : ℝ) (X V C Z : ℝ → ℝ) : Prop where
  start : X 0 = p ∧ V 0 = q ∧ C 0 = r
  continuous : ContinuousOn X (Set.Icc 0 T) ∧ ContinuousOn V (Set.Icc 0 T) ∧ ContinuousOn C (Set.Icc 0 T)
  place : ∀ t ∈ Set.Ioo 0 T, HasDerivWithinAt X (V t) (Set.Ioi t) t
  velocity : ∀ t ∈ Set.Ioo 0 T, HasDerivWithinAt V (Z t) (Set.Ioi t) t
  cost : ∀ t ∈ Set.Ioo 0 T, HasDerivWithinAt C ((V t ^ 2 - X t ^ 2) / 2) (Set.Ioi t) t
  bounds : ∀ t ∈ Set.Ioo 0 T, -N ≤ Z t ∧ Z t ≤ N

/-- The first-order conditions of the problem with the penalty `f`: `P` and `Q` are the prices of place and velocity. -/
structure Priced (f : ℝ → ℝ) (T : ℝ) (X V C W P Q : ℝ → ℝ) : Prop where
  place : ∀ t ∈ Set.Icc 0 T, HasDerivAt X (V t) t
  velocity : ∀ t ∈ Set.Icc 0 T, HasDerivAt V (W t) t
  cost : ∀ t ∈ Set.Icc 0 T, HasDerivAt C ((V t ^ 2 - X t ^ 2) / 2) t
  far : ∀ t ∈ Set.Icc 0 T, HasDerivAt P (X t) t
  fast : ∀ t ∈ Set.Icc 0 T, HasDerivAt Q (-(P t + V t)) t
  balance : ∀ t ∈ Set.Icc 0 T, HasDerivAt f (-Q t) (W t)
  stop : P T = 0 ∧ Q T = 0

/-! ### Lemmas -/

theorem alyChan_stated : Stated alyChan where
  costates := rfl
  coparameters := rfl
  parameters := rfl
  quads := rfl
  law := rfl
  acyclic := ⟨fun _ => 0, by decide⟩
  reg := ⟨rfl, by decide, by decide, by decide, by simp [alyChan], by decide, by decide⟩
  inside := by decide
  ends := by decide
  bounds := by simp [alyChan]
  flat := by simp [alyChan]
  names := by decide
  trig := by decide +kernel
  plain := by decide +kernel
  free := by decide +kernel
  ind := by decide +kernel

theorem alyChan_completes (U : Name → Nat → ℝ → ℝ) : Completes U alyChan id where
  off := fun _ _ _ => rfl
  quantities := by simp [alyChan]
  switches := by simp [alyChan]
  trig := by simp [TrigEnv, alyChan]

theorem alyChan_path (U : Name → Nat → ℝ → ℝ) (B : ℝ → ℝ → ℝ → ℝ → ℝ) (σ : Env) : (userOcp U id B alyChan).path σ =
    B (σ "epsilon1") (-σ "u_max") (σ "u_max") (σ "u") := by
  simp [userOcp, alyChan, penalties, penalty, Con.twoSided, eval]

theorem alyChan_ham (U : Name → Nat → ℝ → ℝ) (B : ℝ → ℝ → ℝ → ℝ → ℝ) (l : Name → ℝ) (σ : Env) : (userOcp U id B alyChan).ham l σ =
    B (σ "epsilon1") (-σ "u_max") (σ "u_max") (σ "u") + (l "x1" * σ "x2" + (l "x2" * σ "u" + l "x3" * ((σ "x2" ^ 2 - σ "x1" ^ 2) / 2))) := by
  rw [Ocp.ham, alyChan_path]
  simp [userOcp, alyChan, eval, eval_sub]
  exact Or.inl (by ring)

theorem alyChan_stop (U : Name → Nat → ℝ → ℝ) (B : ℝ → ℝ → ℝ → ℝ → ℝ) (ν : Nat → ℝ) (σ : Env) :
    lagrange (userOcp U id B alyChan).costTerminal (userOcp U id B alyChan).terminal ν σ = σ "x3" + ν 0 * (σ "t" - 3.1415 / 2) := by
  simp [lagrange, userOcp, alyChan, penalties, Con.twoSided, List.filter, eval, eval_sub]
  left
  norm_num

/-- The part of the second variation that is a square: with the time to go `s`, short of a quarter of a period. -/
theorem tan_rate {T t : ℝ} (hT : T < Real.pi / 2) (ht : t ∈ Set.Icc 0 T) :
    HasDerivAt (fun t => Real.tan (T - t)) (-(1 + Real.tan (T - t) ^ 2)) t := by
  have hc : Real.cos (T - t) ≠ 0 := (Real.cos_pos_of_mem_Ioo ⟨by linarith [Real.pi_pos, ht.2], by linarith [ht.1]⟩).ne'
  have k := HasDerivAt.comp (h₂ := Real.tan) (h := fun t => T - t) t (Real.hasDerivAt_tan hc) ((hasDerivAt_id t).const_sub T)
  refine k.congr_deriv ?_
  rw [Real.tan_eq_sin_div_cos]
  field_simp
  have := Real.sin_sq_add_cos_sq (T - t)
  linarith

/-- There is only one curve from a given start that satisfies the first-order conditions. -/
theorem Priced.same {f : ℝ → ℝ} {D : Set ℝ} (hf : ConvexOn ℝ D f) {T : ℝ} (h0 : 0 < T) (hT : T < Real.pi / 2) {X V C W P Q Y Z E w R S : ℝ → ℝ}
    (h : Priced f T X V C W P Q) (k : Priced f T Y Z E w R S) (hW : ∀ t ∈ Set.Icc 0 T, W t ∈ D) (hw : ∀ t ∈ Set.Icc 0 T, w t ∈ D)
    (e1 : X 0 = Y 0) (e2 : V 0 = Z 0) (e3 : C 0 = E 0) : ∀ t ∈ Set.Icc 0 T, X t = Y t ∧ V t = Z t ∧ C t = E t ∧ W t = w t := by
  have z0 : (0 : ℝ) ∈ Set.Icc 0 T := ⟨le_refl _, h0.le⟩
  have zT : T ∈ Set.Icc 0 T := ⟨h0.le, le_refl _⟩
  obtain ⟨Ψ, hΨ⟩ : ∃ Ψ : ℝ → ℝ, Ψ = fun t => (R t - P t) * (Y t - X t) + (S t - Q t) * (Z t - V t) + Real.tan (T - t) * (Y t - X t) ^ 2 := ⟨_, rfl⟩
  have d : ∀ t ∈ Set.Icc 0 T, ∃ D, HasDerivAt Ψ D t ∧ D ≤ -((Z t - V t) - Real.tan (T - t) * (Y t - X t)) ^ 2 := by
    intro t ht
    rw [hΨ]
    refine ⟨_, ((((k.far t ht).sub (h.far t ht)).mul ((k.place t ht).sub (h.place t ht))).add
      (((k.fast t ht).sub (h.fast t ht)).mul ((k.velocity t ht).sub (h.velocity t ht)))).add
      ((tan_rate hT ht).mul (((k.place t ht).sub (h.place t ht)).pow 2)), ?_⟩
    have q1 := convex_tangent hf (hW t ht) (hw t ht) (h.balance t ht)
    have q2 := convex_tangent hf (hw t ht) (hW t ht) (k.balance t ht)
    simp only [Pi.sub_apply, Pi.pow_apply]
    norm_num
    nlinarith
  choose! D hD hle using d
  have cont : ContinuousOn Ψ (Set.Icc 0 T) := fun t ht => (hD t ht).continuousAt.continuousWithinAt
  have anti : AntitoneOn Ψ (Set.Icc 0 T) := by
    refine antitoneOn_of_deriv_nonpos (convex_Icc 0 T) cont (fun t ht => ?_) fun t ht => ?_
    · rw [interior_Icc] at ht
      exact (hD t ⟨ht.1.le, ht.2.le⟩).differentiableAt.differentiableWithinAt
    · rw [interior_Icc] at ht
      rw [(hD t ⟨ht.1.le, ht.2.le⟩).deriv]
      exact (hle t ⟨ht.1.le, ht.2.le⟩).trans (neg_nonpos.2 (sq_nonneg _))
  have a0 : Ψ 0 = 0 := by simp [hΨ, e1, e2]
  have aT : Ψ T = 0 := by simp [hΨ, h.stop.1, h.stop.2, k.stop.1, k.stop.2]
  have flat : ∀ t ∈ Set.Icc 0 T, Ψ t = 0 := by
    intro t ht
    have q1 := anti z0 ht ht.1
    have q2 := anti ht zT ht.2
    linarith
  have slide : ∀ t ∈ Set.Icc 0 T, Z t - V t = Real.tan (T - t) * (Y t - X t) := by
    intro t ht
    have u1 := (uniqueDiffOn_Icc h0) t ht
    have q := u1.eq_deriv _ (hD t ht).hasDerivWithinAt ((hasDerivWithinAt_const t (Set.Icc 0 T) (0 : ℝ)).congr flat (flat t ht))
    have q2 := hle t ht
    rw [q] at q2
    have q3 : ((Z t - V t) - Real.tan (T - t) * (Y t - X t)) ^ 2 = 0 := le_antisymm (by linarith) (sq_nonneg _)
    have := pow_eq_zero_iff (two_ne_zero) |>.1 q3
    linarith
  have cpos : ∀ t ∈ Set.Icc 0 T, 0 < Real.cos (T - t) := fun t ht =>
    Real.cos_pos_of_mem_Ioo ⟨by linarith [Real.pi_pos, ht.2], by linarith [ht.1]⟩
  have ratio : ∀ t ∈ Set.Icc 0 T, HasDerivAt (fun t => (Y t - X t) / Real.cos (T - t)) 0 t := by
    intro t ht
    have q := ((k.place t ht).sub (h.place t ht)).div (((hasDerivAt_id t).const_sub T).cos) (cpos t ht).ne'
    refine q.congr_deriv ?_
    have q1 := slide t ht
    have hc := (cpos t ht).ne'
    rw [Real.tan_eq_sin_div_cos] at q1
    simp only [id, Pi.sub_apply]
    rw [q1]
    field_simp
    ring
  have sx : ∀ t ∈ Set.Icc 0 T, X t = Y t := by
    intro t ht
    have q := const_on ratio t ht
    simp only [e1, sub_self, zero_div, div_eq_zero_iff, (cpos t ht).ne', or_false] at q
    linarith
  have sv : ∀ t ∈ Set.Icc 0 T, V t = Z t := by
    intro t ht
    have q := slide t ht
    rw [sx t ht, sub_self, mul_zero] at q
    linarith
  intro t ht
  refine ⟨sx t ht, sv t ht, ?_, ?_⟩
  · have q : ∀ t ∈ Set.Icc 0 T, HasDerivAt (fun t => C t - E t) 0 t := fun t ht =>
      ((h.cost t ht).sub (k.cost t ht)).congr_deriv (by rw [sx t ht, sv t ht, sub_self])
    have q2 := const_on q t ht
    simp only [e3, sub_self] at q2
    linarith
  · exact ((uniqueDiffOn_Icc h0) t ht).eq_deriv _ (h.velocity t ht).hasDerivWithinAt ((k.velocity t ht).hasDerivWithinAt.congr sv (sv t ht))

/-- What an extremal of the problem with the penalty costs, if its control is between the bounds at some time. -/
theorem alyChan_bounds {U : Name → Nat → ℝ → ℝ} {B : ℝ → ℝ → ℝ → ℝ → ℝ} (hB : Barriers B) {a b : ℝ} (hab : a < b) {x : ℝ → Env}
    {lam : ℝ → Name → ℝ} {ν₀ ν₁ : Nat → ℝ} (h : Extremal (userOcp U id B alyChan) a b x lam ν₀ ν₁)
    (hpath : ContinuousOn (fun t => (userOcp U id B alyChan).path (x t)) (Set.Icc a b))
    (hu : ContinuousOn (fun t => x t "u") (Set.Icc a b)) {p q r N e : ℝ} (hp : x a "x1_0" = p) (hq : x a "x2_0" = q) (hr : x a "x3_0" = r)
    (hN : x a "u_max" = N) (hE : x a "epsilon1" = e) (he : 0 < e) (hl : 0 < N) {s : ℝ} (hs : s ∈ Set.Icc a b)
    (hin : -N < x s "u" ∧ x s "u" < N) :
    a = 0 ∧ b = 3.1415 / 2 ∧ (∀ t ∈ Set.Icc 0 (3.1415 / 2), -N < x t "u" ∧ x t "u" < N) ∧
      Maneuvers p q r N (3.1415 / 2) (fun t => x t "x1") (fun t => x t "x2") (fun t => x t "x3") (fun t => x t "u") ∧
      Priced (B e (-N) N) (3.1415 / 2) (fun t => x t "x1") (fun t => x t "x2") (fun t => x t "x3") (fun t => x t "u") (fun t => lam t "x1")
        (fun t => lam t "x2") ∧
      ∀ X V C Z μ, 0 < μ → Maneuvers p q r N (3.1415 / 2) X V C Z →
        (∀ t ∈ Set.Ioo 0 (3.1415 / 2), |Z t| ≤ (1 - 2 * μ) * N) →
        x (3.1415 / 2) "x3" ≤ C (3.1415 / 2) + 3.1415 / 2 * (e / (2 * μ)) := by
  have ng : ∀ σ : Env, eval (real U) σ (-sym "u_max") = -σ "u_max" := fun σ => eval_neg _ _ _
  have es : ∀ (σ : Env) n, eval (real U) σ (sym n) = σ n := fun _ _ => rfl
  have ca : a ∈ Set.Icc a b := ⟨le_refl _, hab.le⟩
  have cb : b ∈ Set.Icc a b := ⟨hab.le, le_refl _⟩
  have fx : ∀ s ∈ alyChan.constants, ∀ t ∈ Set.Icc a b, x t s = x a s := fun s hs t ht => h.fixed s (by simpa [userOcp] using hs) t ht
  have cN : ∀ t ∈ Set.Icc a b, x t "u_max" = N := fun t ht => (fx _ (by decide) t ht).trans hN
  have cE : ∀ t ∈ Set.Icc a b, x t "epsilon1" = e := fun t ht => (fx _ (by decide) t ht).trans hE
  have h0 := h.initial
  have h1 := h.terminal
  simp only [userOcp, alyChan, Con.twoSided, List.filter, Option.isSome, Bool.and_false, Bool.not_false, List.map_cons, List.map_nil,
    List.mem_cons, List.not_mem_nil, or_false, forall_eq_or_imp, forall_eq, id, eval_sub, eval] at h0 h1
  obtain ⟨i1, i2, i3, it⟩ := h0
  have ea : a = 0 := by
    rw [← h.time a ca]
    exact it
  have eb : b = 3.1415 / 2 := by
    rw [← h.time b cb]
    have ft := h1
    simp only [eval_div, eval, eval_two] at ft
    change x b "t" = _
    norm_num at ft ⊢
    linarith
  subst ea
  have m := h.motion
  simp only [userOcp, alyChan, List.map_cons, List.map_nil, List.mem_cons, List.not_mem_nil, or_false, forall_eq_or_imp, forall_eq, id] at m
  obtain ⟨m1, m2, m3⟩ := m
  simp only [eval] at m1 m2
  have m3 : ∀ t ∈ Set.Icc 0 b, HasDerivAt (fun t => x t "x3") ((x t "x2" ^ 2 - x t "x1" ^ 2) / 2) t := fun t ht =>
    (m3 t ht).congr_deriv (by
      simp [eval, eval_sub]
      ring)
  have fenced : Fenced U id alyChan 0 b x := by
    refine ⟨?_, ?_⟩
    · simp only [alyChan, eval]
      exact continuousOn_const
    · intro c hc _
      simp only [alyChan, List.mem_singleton] at hc
      subst hc
      have conN : ContinuousOn (fun t => x t "u_max") (Set.Icc 0 b) := (continuousOn_const (c := N)).congr cN
      refine ⟨fun _ => hu, ⟨_, rfl, (continuousOn_const (c := e)).congr cE, ?_⟩, _, _, rfl, rfl, ?_, conN, ?_⟩
      · intro t ht
        change 0 < x t "epsilon1"
        rw [cE t ht]
        exact he
      · simp only [ng, id]
        exact conN.neg
      · intro t ht
        simp only [id, ng, es]
        rw [cN t ht]
        linarith
  have hold : ∀ t ∈ Set.Icc 0 b, -N < x t "u" ∧ x t "u" < N := by
    have k := fenced.respected alyChan_stated (alyChan_completes U) hB hpath hs (by
      intro c hc _
      simp only [alyChan, List.mem_singleton] at hc
      subst hc
      simp only [HoldsAt, Option.mem_def, Option.some.injEq, forall_eq', id]
      simp only [ng, es, cN s hs]
      exact ⟨fun _ => hin, hin.1.le, hin.2.le⟩)
    intro t ht
    have k2 := (k t ht _ (List.mem_singleton_self _) rfl).1 rfl _ rfl _ rfl
    simp only [id, ng, es] at k2
    rwa [cN t ht] at k2
  rw [hp] at i1
  rw [hq] at i2
  rw [hr] at i3
  have c1 : ContinuousOn (fun t => x t "x1") (Set.Icc 0 b) := fun t ht => (m1 t ht).continuousAt.continuousWithinAt
  have c2 : ContinuousOn (fun t => x t "x2") (Set.Icc 0 b) := fun t ht => (m2 t ht).continuousAt.continuousWithinAt
  have c3 : ContinuousOn (fun t => x t "x3") (Set.Icc 0 b) := fun t ht => (m3 t ht).continuousAt.continuousWithinAt
  have adj : ∀ n, (n = "x1" ∨ n = "x2" ∨ n = "x3") → ∀ t ∈ Set.Icc 0 b, ∃ d, HasPartial ((userOcp U id B alyChan).ham (lam t)) n d (x t) ∧
      HasDerivAt (fun τ => lam τ n) (-d) t := by
    intro n hn t ht
    have hr : n ∈ (userOcp U id B alyChan).rates.map Prod.fst := by
      simpa [userOcp, alyChan] using hn
    obtain ⟨r, hr2, rfl⟩ := List.mem_map.1 hr
    exact h.adjoint r hr2 t ht
  have fin : ∀ n, (n = "x1" ∨ n = "x2" ∨ n = "x3") →
      HasPartial (lagrange (userOcp U id B alyChan).costTerminal (userOcp U id B alyChan).terminal ν₁) n (lam b n) (x b) := by
    intro n hn
    have hr : n ∈ (userOcp U id B alyChan).rates.map Prod.fst := by
      simpa [userOcp, alyChan] using hn
    obtain ⟨r, hr2, rfl⟩ := List.mem_map.1 hr
    exact h.stop r hr2
  have s1 : lam b "x1" = 0 := by
    have k := fin "x1" (by simp)
    simp only [HasPartial, alyChan_stop, Function.update_apply, String.reduceEq, if_false] at k
    exact k.unique (hasDerivAt_const _ _)
  have s2 : lam b "x2" = 0 := by
    have k := fin "x2" (by simp)
    simp only [HasPartial, alyChan_stop, Function.update_apply, String.reduceEq, if_false] at k
    exact k.unique (hasDerivAt_const _ _)
  have s3 : lam b "x3" = 1 := by
    have k := fin "x3" (by simp)
    simp only [HasPartial, alyChan_stop, Function.update_apply, String.reduceEq, if_false, if_true] at k
    exact k.unique ((hasDerivAt_id _).add_const _)
  have l3' : ∀ t ∈ Set.Icc 0 b, HasDerivAt (fun τ => lam τ "x3") 0 t := by
    intro t ht
    obtain ⟨d, hd, hl⟩ := adj "x3" (by simp) t ht
    simp only [HasPartial, alyChan_ham, Function.update_apply, String.reduceEq, if_false] at hd
    have := hd.unique (hasDerivAt_const _ _)
    rwa [this, neg_zero] at hl
  have l3 : ∀ t ∈ Set.Icc 0 b, lam t "x3" = 1 := by
    intro t ht
    rw [const_on l3' t ht, ← const_on l3' b cb, s3]
  have l1 : ∀ t ∈ Set.Icc 0 b, HasDerivAt (fun τ => lam τ "x1") (x t "x1") t := by
    intro t ht
    obtain ⟨d, hd, hl⟩ := adj "x1" (by simp) t ht
    simp only [HasPartial, alyChan_ham, Function.update_apply, String.reduceEq, if_false, if_true] at hd
    have k := hd.unique ((((((hasDerivAt_pow 2 (x t "x1")).const_sub (x t "x2" ^ 2)).div_const 2).const_mul (lam t "x3")).const_add
      (lam t "x2" * x t "u")).const_add (lam t "x1" * x t "x2") |>.const_add (B (x t "epsilon1") (-x t "u_max") (x t "u_max") (x t "u")))
    refine hl.congr_deriv ?_
    rw [k, l3 t ht]
    norm_num
    ring
  have l2 : ∀ t ∈ Set.Icc 0 b, HasDerivAt (fun τ => lam τ "x2") (-(lam t "x1" + x t "x2")) t := by
    intro t ht
    obtain ⟨d, hd, hl⟩ := adj "x2" (by simp) t ht
    simp only [HasPartial, alyChan_ham, Function.update_apply, String.reduceEq, if_false, if_true] at hd
    have k := hd.unique (((((hasDerivAt_id (x t "x2")).const_mul (lam t "x1")).add
      (((((hasDerivAt_pow 2 (x t "x2")).sub_const (x t "x1" ^ 2)).div_const 2).const_mul (lam t "x3")).const_add
        (lam t "x2" * x t "u")))).const_add (B (x t "epsilon1") (-x t "u_max") (x t "u_max") (x t "u")))
    refine hl.congr_deriv ?_
    rw [k, l3 t ht]
    norm_num
  have st : ∀ t ∈ Set.Icc 0 b, HasDerivAt (B e (-N) N) (-lam t "x2") (x t "u") := by
    intro t ht
    have k := h.stationary "u" (by simp [userOcp, alyChan, epsControls]) t ht
    simp only [HasPartial, alyChan_ham, Function.update_apply, String.reduceEq, if_false, if_true, cN t ht, cE t ht] at k
    have k2 := k.sub ((((hasDerivAt_id (x t "u")).const_mul (lam t "x2")).add_const (lam t "x3" * ((x t "x2" ^ 2 - x t "x1" ^ 2) / 2))).const_add
      (lam t "x1" * x t "x2"))
    have e1 : B e (-N) N = (fun z => B e (-N) N z + (lam t "x1" * x t "x2" + (lam t "x2" * z + lam t "x3" * ((x t "x2" ^ 2 - x t "x1" ^ 2) / 2)))) -
        fun z => lam t "x1" * x t "x2" + (lam t "x2" * id z + lam t "x3" * ((x t "x2" ^ 2 - x t "x1" ^ 2) / 2)) := by
      funext z
      simp
    rw [e1]
    exact k2.congr_deriv (by ring)
  have hT : b < Real.pi / 2 := by
    rw [eb]
    have := Real.pi_gt_d4
    linarith
  rw [← eb]
  have inn : ∀ t ∈ Set.Ioo 0 b, t ∈ Set.Icc 0 b := fun t ht => ⟨ht.1.le, ht.2.le⟩
  refine ⟨rfl, rfl, hold, ⟨⟨by linarith, by linarith, by linarith⟩, ⟨c1, c2, c3⟩, fun t ht => (m1 t (inn t ht)).hasDerivWithinAt,
    fun t ht => (m2 t (inn t ht)).hasDerivWithinAt, fun t ht => (m3 t (inn t ht)).hasDerivWithinAt,
    fun t ht => ⟨(hold t (inn t ht)).1.le, (hold t (inn t ht)).2.le⟩⟩, ⟨m1, m2, m3, l1, l2, st, s1, s2⟩, ?_⟩
  intro X V C Z μ hμ hX room
  have bar := hB.barrier e (-N) N he (by linarith)
  have cl1 : ContinuousOn (fun t => lam t "x1") (Set.Icc 0 b) := fun t ht => (l1 t ht).continuousAt.continuousWithinAt
  have cl2 : ContinuousOn (fun t => lam t "x2") (Set.Icc 0 b) := fun t ht => (l2 t ht).continuousAt.continuousWithinAt
  have ct : ContinuousOn (fun t => Real.tan (b - t)) (Set.Icc 0 b) := fun t ht => (tan_rate hT ht).continuousAt.continuousWithinAt
  obtain ⟨kx, kv, kc⟩ := hX.continuous
  have k := intervalIntegral.sub_le_integral_of_hasDeriv_right_of_le (φ := fun _ => e / (2 * μ)) hab.le
    (g := fun t => (x t "x3" - C t) - (lam t "x1" * (X t - x t "x1") + lam t "x2" * (V t - x t "x2")) +
      Real.tan (b - t) * (X t - x t "x1") ^ 2 / 2)
    (((c3.sub kc).sub ((cl1.mul (kx.sub c1)).add (cl2.mul (kv.sub c2)))).add ((ct.mul ((kx.sub c1).pow 2)).div_const 2))
    (fun t ht => ((((m3 t (inn t ht)).hasDerivWithinAt).sub (hX.cost t ht)).sub
      (((l1 t (inn t ht)).hasDerivWithinAt.mul ((hX.place t ht).sub (m1 t (inn t ht)).hasDerivWithinAt)).add
        ((l2 t (inn t ht)).hasDerivWithinAt.mul ((hX.velocity t ht).sub (m2 t (inn t ht)).hasDerivWithinAt)))).add
      (((tan_rate hT (inn t ht)).hasDerivWithinAt.mul (((hX.place t ht).sub (m1 t (inn t ht)).hasDerivWithinAt).pow 2)).div_const 2))
    (by simp) (by
      intro t ht
      have hi := inn t ht
      obtain ⟨r1, r2⟩ := abs_le.1 (room t ht)
      have w := mul_pos hμ hl
      have zin : Z t ∈ Set.Ioo (-N) N := ⟨by linarith, by linarith⟩
      have k1 := convex_tangent bar.convex (hold t hi) zin (st t hi)
      have k2 := hB.bound e (-N) N μ (Z t) he.le (by linarith) hμ (by linarith) (by linarith)
      have k3 := bar.nonneg _ (hold t hi).1 (hold t hi).2
      have k4 := sq_nonneg ((V t - x t "x2") - Real.tan (b - t) * (X t - x t "x1"))
      simp only [Pi.sub_apply, Pi.pow_apply]
      norm_num
      nlinarith)
  obtain ⟨z1, z2, z3⟩ := hX.start
  have y1 : x 0 "x1" = p := by linarith
  have y2 : x 0 "x2" = q := by linarith
  have y3 : x 0 "x3" = r := by linarith
  rw [s1, s2, z1, z2, z3, y1, y2, y3] at k
  simp only [sub_self, Real.tan_zero, zero_mul, mul_zero, add_zero, zero_div, sub_zero, intervalIntegral.integral_const, smul_eq_mul] at k
  norm_num at k
  linarith

/-- What one run on the example returns, in the words of `alyChan_bounds`. -/
theorem alyChan_run {S : Sympy} (hL : LuSound S) {o : Opts} {p' q : Prob} (hm : o.momentumShift = true) (hd : o.method ≠ .other)
    (hS : o.controlMethod = .algebraic → SolveSound S) (h : indirect S o alyChan = .ok p') (hq : primal S alyChan = .ok q)
    {B : ℝ → ℝ → ℝ → ℝ → ℝ} (hB : Barriers B)
    {U : Name → Nat → ℝ → ℝ} {a b : ℝ} {y : ℝ → List ℝ} {pr k : List ℝ} {ρ : ℝ → Env} {s s' : Sol ℝ}
    (hr : MappedBack S o alyChan p' q U a b y pr k ρ s s') {x₀ v₀ c₀ e N : ℝ} (hk : s'.const = [x₀, v₀, c₀, e, N]) (he : 0 < e) (hN : 0 < N)
    (hin : ∀ n l, s'.u = .rows n l → ∃ row ∈ l, ∃ v ∈ row, |v| < N) :
    ∃ X V C W P Q, Maneuvers x₀ v₀ c₀ N (3.1415 / 2) X V C W ∧ (∀ t ∈ Set.Icc 0 (3.1415 / 2), -N < W t ∧ W t < N) ∧
      Priced (B e (-N) N) (3.1415 / 2) X V C W P Q ∧ s'.t.head? = some 0 ∧ s'.t.getLast? = some (3.1415 / 2) ∧
      (∀ t ∈ s'.t, t ∈ Set.Icc 0 (3.1415 / 2)) ∧
      s'.y = .rows 3 (s'.t.map fun t => [X t, V t, C t]) ∧ s'.u = .rows 1 (s'.t.map fun t => [W t]) ∧
      ∀ Y Z E w μ, 0 < μ → Maneuvers x₀ v₀ c₀ N (3.1415 / 2) Y Z E w → (∀ t ∈ Set.Ioo 0 (3.1415 / 2), |w t| ≤ (1 - 2 * μ) * N) →
        C (3.1415 / 2) ≤ E (3.1415 / 2) + 3.1415 / 2 * (e / (2 * μ)) := by
  obtain ⟨t₀, c, x, lam, ν₀, ν₁, c1, c2, c3, -, c5, c6, c7, -, c9, c10⟩ := hr.curve hL alyChan_stated hm hd hS h hq hB
    (alyChan_completes U)
  have hlt : t₀ < t₀ + c * (b - a) := by nlinarith [mul_pos c1 (sub_pos.2 hr.lt)]
  have hval := c3.constants t₀ (List.mem_of_mem_head? c5)
  rw [hk] at hval
  simp only [alyChan, List.map_cons, List.map_nil, List.cons.injEq, and_true] at hval
  obtain ⟨k1, k2, k3, k4, k5⟩ := hval
  obtain ⟨row, hrow, v, hv, v1⟩ := hin _ _ c3.controls
  obtain ⟨τ, hτ, rfl⟩ := List.mem_map.1 hrow
  have hv : v = x τ "u" := by simpa [alyChan] using hv
  subst hv
  obtain ⟨r1, r2, r3, r4, r5, r6⟩ := alyChan_bounds hB hlt c2 c9 (c10 "u" (by simp [alyChan])) k1 k2 k3 k5 k4 he hN (c7 τ hτ) (abs_lt.1 v1)
  rw [r2] at c6 c7
  rw [r1] at c5 c7
  exact ⟨_, _, _, _, _, _, r4, r3, r5, c5, c6, c7, c3.states, c3.controls, r6⟩

/-! ### Properties -/

/-- Whatever beluga returns for the Aly-Chan example, for all values of the constants: if the numerical solution solves the boundary value
problem and one of the returned controls lies between the bounds, the returned tables are samples of a motion that starts as asked for and
never touches the bounds; and its cost exceeds that of no other motion by more than the time span times the activator divided by twice the
fraction of the interval that the control of the other one keeps away from the bounds. -/
theorem C101_returned {S : Sympy} (hL : LuSound S) {o : Opts} {p' : Prob} (hm : o.momentumShift = true) (hd : o.method ≠ .other)
    (hS : o.controlMethod = .algebraic → SolveSound S) (h : indirect S o alyChan = .ok p') :
    ∃ q, primal S alyChan = .ok q ∧ ∀ U a b y pr k ρ s s', MappedBack S o alyChan p' q U a b y pr k ρ s s' →
      ∀ x₀ v₀ c₀ e N, s'.const = [x₀, v₀, c₀, e, N] → 0 < e → 0 < N → (∀ n l, s'.u = .rows n l → ∃ row ∈ l, ∃ v ∈ row, |v| < N) →
      ∃ X V C W, Maneuvers x₀ v₀ c₀ N (3.1415 / 2) X V C W ∧ (∀ t ∈ Set.Icc 0 (3.1415 / 2), -N < W t ∧ W t < N) ∧
        s'.t.head? = some 0 ∧ s'.t.getLast? = some (3.1415 / 2) ∧
        s'.y = .rows 3 (s'.t.map fun t => [X t, V t, C t]) ∧ s'.u = .rows 1 (s'.t.map fun t => [W t]) ∧
        ∀ Y Z E w μ, 0 < μ → Maneuvers x₀ v₀ c₀ N (3.1415 / 2) Y Z E w → (∀ t ∈ Set.Ioo 0 (3.1415 / 2), |w t| ≤ (1 - 2 * μ) * N) →
          C (3.1415 / 2) ≤ E (3.1415 / 2) + 3.1415 / 2 * (e / (2 * μ)) := by
  obtain ⟨q, B, hq, hB, -⟩ := C73_returned_partial hL alyChan_stated hm hd hS h
  refine ⟨q, hq, ?_⟩
  intro U a b y pr k ρ s s' hr x₀ v₀ c₀ e N hk he hN hin
  obtain ⟨X, V, C, W, P, Q, k1, k2, -, k4, k5, -, k6, k7, k8⟩ := alyChan_run hL hm hd hS h hq hB hr hk he hN hin
  exact ⟨X, V, C, W, k1, k2, k4, k5, k6, k7, k8⟩

/-- All exact solutions of the Aly-Chan example with the same constants, of which one control lies between the bounds, come back as samples
of one motion. -/
theorem C101_unique {S S2 : Sympy} (hL : LuSound S) (hL2 : LuSound S2) {o o2 : Opts} {p' p2' : Prob} (hm : o.momentumShift = true)
    (hm2 : o2.momentumShift = true) (hd : o.method ≠ .other) (hd2 : o2.method ≠ .other)
    (hS : o.controlMethod = .algebraic → SolveSound S) (hS2 : o2.controlMethod = .algebraic → SolveSound S2)
    (h : indirect S o alyChan = .ok p') (h2 : indirect S2 o2 alyChan = .ok p2') :
    ∃ q q2, primal S alyChan = .ok q ∧ primal S2 alyChan = .ok q2 ∧
      ∀ U U2 a b y pr k ρ s s' a2 b2 y2 pr2 k2 ρ2 s2 s2',
      MappedBack S o alyChan p' q U a b y pr k ρ s s' → MappedBack S2 o2 alyChan p2' q2 U2 a2 b2 y2 pr2 k2 ρ2 s2 s2' →
      ∀ x₀ v₀ c₀ e N, s'.const = [x₀, v₀, c₀, e, N] → s2'.const = [x₀, v₀, c₀, e, N] → 0 < e → 0 < N →
      (∀ n l, s'.u = .rows n l → ∃ row ∈ l, ∃ v ∈ row, |v| < N) → (∀ n l, s2'.u = .rows n l → ∃ row ∈ l, ∃ v ∈ row, |v| < N) →
      ∃ X V C W : ℝ → ℝ, s'.y = .rows 3 (s'.t.map fun t => [X t, V t, C t]) ∧ s'.u = .rows 1 (s'.t.map fun t => [W t]) ∧
        s2'.y = .rows 3 (s2'.t.map fun t => [X t, V t, C t]) ∧ s2'.u = .rows 1 (s2'.t.map fun t => [W t]) := by
  obtain ⟨q, B, hq, hB, -⟩ := C73_returned_partial hL alyChan_stated hm hd hS h
  obtain ⟨q2, -, hq2, -, -⟩ := C73_returned_partial hL2 alyChan_stated hm2 hd2 hS2 h2
  refine ⟨q, q2, hq, hq2, ?_⟩
  intro U U2 a b y pr k ρ s s' a2 b2 y2 pr2 k2 ρ2 s2 s2' hr hr2 x₀ v₀ c₀ e N hk hk2 he hN hin hin2
  obtain ⟨X, V, C, W, P, Q, f1, f2, f3, -, -, f4, f6, f7, -⟩ := alyChan_run hL hm hd hS h hq hB hr hk he hN hin
  obtain ⟨Y, Z, E, w, P2, Q2, g1, g2, g3, -, -, g4, g6, g7, -⟩ := alyChan_run hL2 hm2 hd2 hS2 h2 hq2 hB hr2 hk2 he hN hin2
  have same := f3.same (hB.barrier e (-N) N he (by linarith)).convex (by norm_num) (by linarith [Real.pi_gt_d4]) g3 (fun t ht => f2 t ht)
    (fun t ht => g2 t ht) (f1.start.1.trans g1.start.1.symm) (f1.start.2.1.trans g1.start.2.1.symm) (f1.start.2.2.trans g1.start.2.2.symm)
  refine ⟨X, V, C, W, f6, f7, ?_, ?_⟩
  · rw [g6]
    congr 1
    refine List.map_congr_left fun t ht => ?_
    obtain ⟨e1, e2, e3, -⟩ := same t (g4 t ht)
    rw [e1, e2, e3]
  · rw [g7]
    congr 1
    refine List.map_congr_left fun t ht => ?_
    rw [(same t (g4 t ht)).2.2.2]

/-- With the constants of the example (AlyChan.py:25-29) the motion without acceleration is one of the competitors. -/
example : Maneuvers 0 1 0 1 (3.1415 / 2) (fun t => t) (fun _ => 1) (fun t => (t - t ^ 3 / 3) / 2) (fun _ => 0) := by
  refine ⟨by norm_num, ⟨continuousOn_id, continuousOn_const, Continuous.continuousOn (by fun_prop)⟩, fun t _ => (hasDerivAt_id t).hasDerivWithinAt,
    fun t _ => hasDerivWithinAt_const _ _ _, fun t _ => ?_, fun t _ => by norm_num⟩
  have := (((hasDerivAt_id t).sub ((hasDerivAt_pow 3 t).div_const 3)).div_const 2).hasDerivWithinAt (s := Set.Ioi t)
  refine this.congr_deriv ?_
  norm_num

end Beluga.E2E
