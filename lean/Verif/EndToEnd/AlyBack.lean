import Mathlib.Analysis.Real.Pi.Bounds
import Verif.EndToEnd.AlyChan
import Verif.EndToEnd.CircuitBack

/-!
# The Aly-Chan example: the boundary value problem has solutions (C101)

Motions that satisfy the first-order conditions are solutions of the boundary value problem that beluga makes of the example.
-/

namespace Beluga.E2E

open Beluga.Sym Beluga.Sym.Expr Beluga.Num Beluga.Map Beluga.Opt Beluga.Rep

/-! ### The extremal -/

/-- The curve through a motion. -/
noncomputable def alyCurve (x₀ v₀ c₀ e N : ℝ) (X V C W : ℝ → ℝ) (t : ℝ) : Env := fun s =>
  if s = "t" then t else if s = "x1" then X t else if s = "x2" then V t else if s = "x3" then C t else if s = "u" then W t else
  if s = "x1_0" then x₀ else if s = "x2_0" then v₀ else if s = "x3_0" then c₀ else if s = "epsilon1" then e else if s = "u_max" then N else 0

/-- The prices as costates. -/
noncomputable def alyLam (P Q : ℝ → ℝ) (t : ℝ) : Name → ℝ := fun s => if s = "x1" then P t else if s = "x2" then Q t else if s = "x3" then 1 else 0

theorem alyChan_start (U : Name → Nat → ℝ → ℝ) (B : ℝ → ℝ → ℝ → ℝ → ℝ) (ν : Nat → ℝ) (σ : Env) :
    lagrange (userOcp U id B alyChan).costInitial (userOcp U id B alyChan).initial ν σ =
      ν 0 * (σ "x1" - σ "x1_0") + (ν 1 * (σ "x2" - σ "x2_0") + (ν 2 * (σ "x3" - σ "x3_0") + ν 3 * σ "t")) := by
  simp [lagrange, userOcp, alyChan, penalties, Con.twoSided, List.filter, eval, eval_sub]

theorem Priced.extremal (U : Name → Nat → ℝ → ℝ) {B : ℝ → ℝ → ℝ → ℝ → ℝ} {x₀ v₀ c₀ e N : ℝ} {X V C W P Q : ℝ → ℝ}
    (h : Priced (B e (-N) N) (3.1415 / 2) X V C W P Q) (hx : X 0 = x₀) (hv : V 0 = v₀) (hc : C 0 = c₀) :
    Extremal (userOcp U id B alyChan) 0 (3.1415 / 2) (alyCurve x₀ v₀ c₀ e N X V C W) (alyLam P Q)
      (fun i => if i = 0 then -P 0 else if i = 1 then -Q 0 else if i = 2 then -1 else
        (userOcp U id B alyChan).ham (alyLam P Q 0) (alyCurve x₀ v₀ c₀ e N X V C W 0))
      (fun _ => -(userOcp U id B alyChan).ham (alyLam P Q (3.1415 / 2)) (alyCurve x₀ v₀ c₀ e N X V C W (3.1415 / 2))) := by
  refine ⟨?_, ?_, ?_, ?_, ?_, ?_, ?_, ?_, ?_, ?_, ?_⟩
  · intro t _
    simp [userOcp, alyChan, alyCurve]
  · intro s hs t _
    simp only [userOcp, alyChan, List.mem_cons, List.not_mem_nil, or_false] at hs
    rcases hs with rfl | rfl | rfl | rfl | rfl <;> simp [alyCurve]
  · intro p hp t ht
    simp only [userOcp, alyChan, List.map_cons, List.map_nil, List.mem_cons, List.not_mem_nil, or_false] at hp
    rcases hp with rfl | rfl | rfl
    · simpa [alyCurve, eval] using h.place t ht
    · simpa [alyCurve, eval] using h.velocity t ht
    · have k := h.cost t ht
      simp only [alyCurve, String.reduceEq, if_true, if_false]
      refine k.congr_deriv ?_
      simp [alyCurve, eval, eval_sub]
      ring
  · intro p hp t ht
    simp only [userOcp, alyChan, List.map_cons, List.map_nil, List.mem_cons, List.not_mem_nil, or_false] at hp
    rcases hp with rfl | rfl | rfl
    · refine ⟨-X t, ?_, ?_⟩
      · simp only [HasPartial, alyChan_ham, Function.update_apply, String.reduceEq, if_false, if_true]
        simp only [alyLam, alyCurve, String.reduceEq, if_true, if_false]
        refine ((((((hasDerivAt_pow 2 (X t)).const_sub (V t ^ 2)).div_const 2).const_mul 1).const_add (Q t * W t)).const_add
          (P t * V t) |>.const_add (B e (-N) N (W t))).congr_deriv ?_
        norm_num
        ring
      · simp only [alyLam, if_true, neg_neg]
        exact h.far t ht
    · refine ⟨P t + V t, ?_, ?_⟩
      · simp only [HasPartial, alyChan_ham, Function.update_apply, String.reduceEq, if_false, if_true]
        simp only [alyLam, alyCurve, String.reduceEq, if_true, if_false]
        refine ((((hasDerivAt_id (V t)).const_mul (P t)).add (((((hasDerivAt_pow 2 (V t)).sub_const (X t ^ 2)).div_const 2).const_mul 1).const_add
          (Q t * W t))).const_add (B e (-N) N (W t))).congr_deriv ?_
        norm_num
      · simp only [alyLam, String.reduceEq, if_true, if_false]
        exact h.fast t ht
    · refine ⟨0, ?_, ?_⟩
      · simp only [HasPartial, alyChan_ham, Function.update_apply, String.reduceEq, if_false]
        exact hasDerivAt_const _ _
      · simp only [alyLam, String.reduceEq, if_true, if_false, neg_zero]
        exact hasDerivAt_const _ _
  · intro u hu t ht
    have hu : u = "u" := by simpa [userOcp, alyChan, epsControls] using hu
    subst hu
    simp only [HasPartial, alyChan_ham, Function.update_apply, String.reduceEq, if_false, if_true]
    simp only [alyLam, alyCurve, String.reduceEq, if_true, if_false]
    refine ((h.balance t ht).add ((((hasDerivAt_id (W t)).const_mul (Q t)).add_const (1 * ((V t ^ 2 - X t ^ 2) / 2))).const_add
      (P t * V t))).congr_deriv ?_
    ring
  · intro c hc
    simp only [userOcp, alyChan, Con.twoSided, List.filter, Option.isSome, Bool.and_false, Bool.not_false, List.map_cons, List.map_nil,
      List.mem_cons, List.not_mem_nil, or_false] at hc
    rcases hc with rfl | rfl | rfl | rfl <;> simp [alyCurve, eval, eval_sub, *]
  · intro c hc
    simp only [userOcp, alyChan, Con.twoSided, List.filter, Option.isSome, Bool.and_false, Bool.not_false, List.map_cons, List.map_nil,
      List.mem_cons, List.not_mem_nil, or_false] at hc
    subst hc
    simp [alyCurve, eval, eval_sub]
    norm_num
  · intro p hp
    simp only [userOcp, alyChan, List.map_cons, List.map_nil, List.mem_cons, List.not_mem_nil, or_false] at hp
    rcases hp with rfl | rfl | rfl <;> simp only [HasPartial, alyChan_start, Function.update_apply, String.reduceEq, if_true, if_false]
    · exact ((((hasDerivAt_id _).sub_const _).const_mul _).add_const _).congr_deriv (by simp [alyLam])
    · exact (((((hasDerivAt_id _).sub_const _).const_mul _).add_const _).const_add _).congr_deriv (by simp [alyLam])
    · exact ((((((hasDerivAt_id _).sub_const _).const_mul _).add_const _).const_add _).const_add _).congr_deriv (by simp [alyLam])
  · intro p hp
    simp only [userOcp, alyChan, List.map_cons, List.map_nil, List.mem_cons, List.not_mem_nil, or_false] at hp
    rcases hp with rfl | rfl | rfl <;> simp only [HasPartial, alyChan_stop, Function.update_apply, String.reduceEq, if_true, if_false]
    · exact (hasDerivAt_const _ _).congr_deriv (by simp [alyLam, h.stop.1])
    · exact (hasDerivAt_const _ _).congr_deriv (by simp [alyLam, h.stop.2])
    · exact ((hasDerivAt_id _).add_const _).congr_deriv (by simp [alyLam])
  · show HasPartial _ "t" _ _
    simp only [HasPartial, alyChan_start, Function.update_apply, String.reduceEq, if_true, if_false]
    exact (((((hasDerivAt_id _).const_mul _).const_add _).const_add _).const_add _).congr_deriv (by simp)
  · show HasPartial _ "t" _ _
    simp only [HasPartial, alyChan_stop, Function.update_apply, String.reduceEq, if_true, if_false]
    exact ((((hasDerivAt_id _).sub_const _).const_mul _).const_add _).congr_deriv (by simp)

/-! ### What beluga makes of the problem -/

def alyQ : Prob := match primal brachS alyChan with
  | .ok p => p
  | .error _ => {}

theorem alyQ_ok : primal brachS alyChan = .ok alyQ := by
  have : (match primal brachS alyChan with | .ok _ => true | .error _ => false) = true := by decide +kernel
  rw [alyQ]
  cases h : primal brachS alyChan with
  | ok p => rfl
  | error e => rw [h] at this; cases this

/-- The boundary value problem. -/
def alyBvp : Prob := match indirect brachS {} alyChan with
  | .ok p => p
  | .error _ => {}

theorem alyBvp_ok : indirect brachS {} alyChan = .ok alyBvp := by
  have : (match indirect brachS {} alyChan with | .ok _ => true | .error _ => false) = true := by decide +kernel
  rw [alyBvp]
  cases h : indirect brachS {} alyChan with
  | ok p => rfl
  | error e => rw [h] at this; cases this

/-- The distance of the bounds and the cosine in the penalty. -/
def alyWidth : Expr := sym "u_max" - -sym "u_max"

def alySecant : Expr := fn .cos (Expr.pi / 2 * (2 * sym "u" - sym "u_max" - -sym "u_max") / alyWidth)

/-- The Hamiltonian. -/
def alyH : Expr := hamiltonianOf (0 + sym "epsilon1" * (1 / alySecant - 1))
  [⟨"x1", sym "x2"⟩, ⟨"x2", sym "u"⟩, ⟨"x3", 1 / 2 * (pow (sym "x2") 2 - pow (sym "x1") 2)⟩, ⟨"t", 1⟩]

/-- The denominators. -/
def alyDenoms : List Expr := [2, alyWidth, alySecant]

theorem alyQ_facts : (tidy alyQ.costPath = true ∧ ∀ e ∈ denoms alyQ.costPath, e ∈ alyDenoms) ∧
    (∀ d ∈ alyQ.states, tidy d.eom = true ∧ ∀ e ∈ denoms d.eom, e ∈ alyDenoms) ∧
    (tidy alyQ.costInitial = true ∧ denoms alyQ.costInitial = []) ∧ (tidy alyQ.costTerminal = true ∧ denoms alyQ.costTerminal = []) ∧
    (∀ c ∈ alyQ.initial ++ alyQ.terminal, tidy c.expr = true ∧ ∀ e ∈ denoms c.expr, e = 2) ∧ alyQ.controls = ["u"] ∧
    hexpr alyQ = alyH ∧ tidy ((hexpr alyQ).diff "u") = true ∧ ∀ e ∈ denoms ((hexpr alyQ).diff "u"), e ∈ alyDenoms := by decide +kernel

theorem alyBvp_facts : (∀ d ∈ alyBvp.states, ∀ e ∈ denoms d.eom, e ∈ (detE 1 fun _ _ => (alyH.diff "u").diff "u") :: alyDenoms) ∧
    alyBvp.controls = [] ∧ alyBvp.controlLaw = [] ∧ alyBvp.omega = none := by decide +kernel

theorem alyH_second {U : Name → Nat → ℝ → ℝ} {σ : Env} (_hw : σ "u_max" - -σ "u_max" ≠ 0)
    (hc : Real.cos (Real.pi / 2 * (2 * σ "u" - σ "u_max" - -σ "u_max") / (σ "u_max" - -σ "u_max")) ≠ 0) :
    eval (real U) σ ((alyH.diff "u").diff "u") = σ "epsilon1" * (Real.pi / (σ "u_max" - -σ "u_max")) ^ 2 *
      (1 / Real.cos (Real.pi / 2 * (2 * σ "u" - σ "u_max" - -σ "u_max") / (σ "u_max" - -σ "u_max")) +
      2 * Real.sin (Real.pi / 2 * (2 * σ "u" - σ "u_max" - -σ "u_max") / (σ "u_max" - -σ "u_max")) ^ 2 /
        Real.cos (Real.pi / 2 * (2 * σ "u" - σ "u_max" - -σ "u_max") / (σ "u_max" - -σ "u_max")) ^ 3) := by
  have e1 : ∀ v, (real U).fn .cos v = Real.cos v := fun _ => rfl
  have e2 : ∀ v, (real U).fn .sin v = Real.sin v := fun _ => rfl
  have e3 : (real U).pi = Real.pi := rfl
  have d1 : ∀ a b : Expr, (a - b).diff "u" = add (a.diff "u") (add (mul (num 0) b) (mul (num (-1)) (b.diff "u"))) := fun _ _ => rfl
  have d2 : ∀ a b : Expr, (a / b).diff "u" = add (mul (a.diff "u") (inv b)) (mul a (mul (num (-1)) (mul (b.diff "u") (pow (inv b) 2)))) :=
    fun _ _ => rfl
  have d3 : ∀ a b : Expr, (a * b).diff "u" = add (mul (a.diff "u") b) (mul a (b.diff "u")) := fun _ _ => rfl
  have d4 : ∀ a b : Expr, (a + b).diff "u" = add (a.diff "u") (b.diff "u") := fun _ _ => rfl
  have d5 : ∀ a : Expr, (-a).diff "u" = add (mul (num 0) a) (mul (num (-1)) (a.diff "u")) := fun _ => rfl
  have d6 : ∀ n : Nat, (OfNat.ofNat n : Expr).diff "u" = num 0 := fun _ => rfl
  have ng : ∀ a : Expr, eval (real U) σ (-a) = -eval (real U) σ a := fun _ => eval_neg _ _ _
  have a1 : eval (real U) σ (Expr.pi / 2 * (2 * sym "u" - sym "u_max" - -sym "u_max") / alyWidth) =
      Real.pi / 2 * (2 * σ "u" - σ "u_max" - -σ "u_max") / (σ "u_max" - -σ "u_max") := by
    simp [alyWidth, eval, e3, eval_sub]
  have a2 : eval (real U) σ ((Expr.pi / 2 * (2 * sym "u" - sym "u_max" - -sym "u_max") / alyWidth).diff "u") =
      Real.pi / (σ "u_max" - -σ "u_max") := by
    simp [alyWidth, d1, d2, d3, d5, d6, diff, eval, e3]
    ring
  have a3 : eval (real U) σ (((Expr.pi / 2 * (2 * sym "u" - sym "u_max" - -sym "u_max") / alyWidth).diff "u").diff "u") = 0 := by
    simp [alyWidth, d1, d2, d3, d5, d6, diff, eval, e3]
  simp only [alyH, alySecant, hamiltonianOf, List.foldl]
  generalize Real.pi / 2 * (2 * σ "u" - σ "u_max" - -σ "u_max") / (σ "u_max" - -σ "u_max") = A at *
  generalize Expr.pi / 2 * (2 * sym "u" - sym "u_max" - -sym "u_max") / alyWidth = Y at *
  simp [lamName, d1, d2, d3, d4, d5, d6, diff, dfn, eval, e1, e2, a1, a2, a3]
  generalize Real.pi / (σ "u_max" - -σ "u_max") = c
  field_simp
  ring

/-! ### Properties -/

/-- Every motion that satisfies the first-order conditions is a solution of the boundary value problem that beluga makes of the example
with its default options, and the solution has the regularity that the other theorems assume. -/
theorem C101_complete (U : Name → Nat → ℝ → ℝ) {e N : ℝ} {X V C W P Q : ℝ → ℝ} (h : Priced (fine e (-N) N) (3.1415 / 2) X V C W P Q)
    (he : 0 < e) (hN : 0 < N) (inside : ∀ t ∈ Set.Icc 0 (3.1415 / 2), -N < W t ∧ W t < N)
    (smooth : ∀ t ∈ Set.Icc 0 (3.1415 / 2), DifferentiableAt ℝ W t) :
    ∃ ρ, Solves U alyBvp 0 1 ρ ∧ Regular brachS U alyQ alyBvp 0 1 ρ ∧ 0 < ρ 0 "_delta_t" ∧
      (∀ t ∈ Set.Icc (0 : ℝ) 1, DifferentiableAt ℝ (fun τ => ρ τ "u") t) ∧
      (∀ τ, alyChan.constants.map (ρ τ) = [X 0, V 0, C 0, e, N]) ∧
      ∀ τ, ρ τ "t" = 3.1415 / 2 * τ ∧ ρ τ "x1" = X (3.1415 / 2 * τ) ∧ ρ τ "x2" = V (3.1415 / 2 * τ) ∧ ρ τ "x3" = C (3.1415 / 2 * τ) ∧
        ρ τ "u" = W (3.1415 / 2 * τ) := by
  obtain ⟨q, B, hq, hB, H⟩ := C71_complete_partial (luSound_cramer brachS rfl) alyChan_stated (o := {}) rfl (by decide) alyBvp_ok
  obtain rfl : alyQ = q := Except.ok.inj (alyQ_ok.symm.trans hq)
  have hT : (0 : ℝ) < 3.1415 / 2 := by norm_num
  have hBf : B e (-N) N = fine e (-N) N := by
    funext v
    rw [hB.secant, fine]
  have hx := Priced.extremal U (B := B) (e := e) (N := N) (by rw [hBf]; exact h) rfl rfl rfl
  have mv : (userOcp U id B alyChan).moving = ["x1", "x2", "x3", "u"] := by
    simp [Ocp.moving, userOcp, alyChan, epsControls]
  have tin : ∀ τ ∈ Set.Icc (0 : ℝ) 1, (3.1415 / 2 : ℝ) * τ ∈ Set.Icc (0 : ℝ) (3.1415 / 2) := fun τ hτ =>
    ⟨mul_nonneg hT.le hτ.1, mul_le_of_le_one_right hT.le hτ.2⟩
  obtain ⟨⟨ρ, hρ, -⟩, K⟩ := H U id (alyChan_completes U) 0 (3.1415 / 2) _ _ _ _ hx (by
      intro s hs t ht
      have hs : s = "u" := by simpa [userOcp, alyChan, epsControls] using hs
      subst hs
      simp only [alyCurve, String.reduceEq, if_true, if_false]
      exact smooth t ht) (by
      intro s _ hs h2 t _
      rw [mv] at hs
      simp only [List.mem_cons, List.not_mem_nil, or_false, not_or] at hs
      have h2 : s ≠ "t" := h2
      simp only [alyCurve, hs.1, hs.2.1, hs.2.2.1, hs.2.2.2, h2, if_false]) 0 1 (3.1415 / 2) one_pos hT (by simp) (by ring)
  have nm : ∀ s ∈ alyChan.constants, s ∉ ["x1", "x2", "x3", "u"] ∧ s ≠ "t" ∧ (∀ x ∈ ["x1", "x2", "x3"], s ≠ "_lam_" ++ x) ∧
      s ≠ "_lam_t" ∧ s ≠ "_tau" ∧ s ≠ "_t" ∧ ¬ Reserved s := by decide +kernel
  have cst : ∀ s, s ∈ alyChan.constants → ∀ τ, ρ τ s = alyCurve (X 0) (V 0) (C 0) e N X V C W 0 s := by
    intro s hs τ
    obtain ⟨n1, n2, n3, n6, n7, n8, n9⟩ := nm s hs
    have h1 : s ∉ (userOcp U id B alyChan).moving := by
      rw [mv]
      exact n1
    rw [hρ.rest s h1 n2 (by
        intro x hx
        refine n3 x.1 ?_
        simp only [userOcp, alyChan, List.map_cons, List.map_nil, List.mem_cons, List.not_mem_nil, or_false] at hx
        rcases hx with rfl | rfl | rfl <;> simp) n6 n7 τ]
    exact hρ.plain s n9 h1 n2 n8
  have mov : ∀ s, s ∈ ["x1", "x2", "x3", "u"] → ∀ τ, ρ τ s = alyCurve (X 0) (V 0) (C 0) e N X V C W (3.1415 / 2 * τ) s := by
    intro s hs τ
    rw [hρ.moving s (by rw [mv]; exact hs) τ, zero_add, sub_zero]
  have cM : ∀ τ, ρ τ "u_max" = N := fun τ => by
    rw [cst "u_max" (by decide)]
    simp [alyCurve]
  have ce : ∀ τ, ρ τ "epsilon1" = e := fun τ => by
    rw [cst "epsilon1" (by decide)]
    simp [alyCurve]
  have cu : ∀ τ, ρ τ "u" = W (3.1415 / 2 * τ) := fun τ => by
    rw [mov "u" (by decide)]
    simp [alyCurve]
  have hd : N - -N ≠ 0 := by linarith
  have cospos : ∀ t ∈ Set.Icc (0 : ℝ) 1, 0 < Real.cos (Real.pi / 2 * (2 * W (3.1415 / 2 * t) - N - -N) / (N - -N)) := by
    intro t ht
    obtain ⟨k1, k2⟩ := inside _ (tin t ht)
    have hd : 0 < N - -N := by linarith
    have hp := Real.pi_pos
    refine Real.cos_pos_of_mem_Ioo ⟨?_, ?_⟩
    · rw [lt_div_iff₀ hd]
      nlinarith
    · rw [div_lt_iff₀ hd]
      nlinarith
  have snd : ∀ t ∈ Set.Icc (0 : ℝ) 1, 0 < eval (real U) (ρ t) ((alyH.diff "u").diff "u") := by
    intro t ht
    have k := cospos t ht
    rw [alyH_second (by rw [cM]; exact hd) (by rw [cM, cu]; exact k.ne'), cM, cu, ce]
    have : 0 < Real.pi / (N - -N) := div_pos Real.pi_pos (by linarith)
    positivity
  have good : ∀ t ∈ Set.Icc (0 : ℝ) 1, ∀ d ∈ alyDenoms, eval (real U) (ρ t) d ≠ 0 := by
    intro t ht d hd'
    have e1 : ∀ v, (real U).fn .cos v = Real.cos v := fun _ => rfl
    have e3 : (real U).pi = Real.pi := rfl
    simp only [alyDenoms, List.mem_cons, List.not_mem_nil, or_false] at hd'
    rcases hd' with rfl | rfl | rfl
    · rw [eval_two]
      exact two_ne_zero
    · have a1 : eval (real U) (ρ t) alyWidth = N - -N := by
        rw [← cM t]
        simp [alyWidth, eval, eval_sub]
      rw [a1]
      exact hd
    · have a1 : eval (real U) (ρ t) alySecant = Real.cos (Real.pi / 2 * (2 * W (3.1415 / 2 * t) - N - -N) / (N - -N)) := by
        rw [← cM t, ← cu t]
        simp [alySecant, alyWidth, eval, e1, e3, eval_sub]
      rw [a1]
      exact (cospos t ht).ne'
  obtain ⟨f1, f2, f3, f4, f5, f6, f7, f8, f9⟩ := alyQ_facts
  obtain ⟨b1, b2, b3, b4⟩ := alyBvp_facts
  have two : ∀ (σ : Env) d, d = (2 : Expr) → eval (real U) σ d ≠ 0 := by
    intro σ d hd
    rw [hd, eval_two]
    exact two_ne_zero
  have start : SmoothStart alyQ U (ρ 0) :=
    ⟨smooth_of_tidy f3.1 (by simp [f3.2]), fun c hc => smooth_of_tidy (f5 c (List.mem_append_left _ hc)).1 fun d hd =>
      two _ d ((f5 c (List.mem_append_left _ hc)).2 d hd)⟩
  have stop : SmoothStop alyQ U (ρ 1) :=
    ⟨smooth_of_tidy f4.1 (by simp [f4.2]), fun c hc => smooth_of_tidy (f5 c (List.mem_append_right _ hc)).1 fun d hd =>
      two _ d ((f5 c (List.mem_append_right _ hc)).2 d hd)⟩
  have reg : Regular brachS U alyQ alyBvp 0 1 ρ := by
    refine ⟨fun t ht => ⟨smooth_of_tidy f1.1 fun d hd => good t ht d (f1.2 d hd), fun d hd => smooth_of_tidy (f2 d hd).1 fun x hx =>
      good t ht x ((f2 d hd).2 x hx)⟩, start, stop, ?_, ?_, ?_, ?_, ?_⟩
    · intro t ht u hu
      rw [f6, List.mem_singleton] at hu
      subst hu
      exact smooth_of_tidy f8 fun d hd => good t ht d (f9 d hd)
    · intro t ht d hd
      refine defined_of_denoms fun x hx => ?_
      rcases List.mem_cons.1 (b1 d hd x hx) with rfl | k
      · rw [eval_detE]
        simpa using (snd t ht).ne'
      · exact good t ht x k
    · intro t _ opt ho
      rw [b3] at ho
      cases ho
    · intro t _ u hu
      rw [b2] at hu
      cases hu
    · intro om ho
      rw [b4] at ho
      cases ho
  refine ⟨ρ, K ρ hρ reg (fun h => by cases h) ?_ (fun h => by cases h), reg, ?_, ?_, ?_, ?_⟩
  · intro _ t ht v hv j hj
    rw [f6] at hv hj
    have hj : j = 0 := by simpa using hj
    subst hj
    have := hv 0 (by simp)
    rw [f7] at this
    simpa [(snd t ht).ne'] using this
  · have e : ρ 0 "_delta_t" = 3.1415 / 2 := hρ.duration rfl
    rw [e]
    exact hT
  · intro t ht
    rw [show (fun τ => ρ τ "u") = fun τ => W (3.1415 / 2 * τ) from funext cu]
    exact DifferentiableAt.comp (g := W) (f := fun τ => 3.1415 / 2 * τ) t (smooth _ (tin t ht)) (differentiableAt_id.const_mul _)
  · intro τ
    rw [List.map_congr_left fun s hs => cst s hs τ]
    simp [alyChan, alyCurve]
  · intro τ
    refine ⟨?_, ?_, ?_, ?_, cu τ⟩
    · have e : ρ τ "t" = 0 + 3.1415 / 2 * (τ - 0) := hρ.time τ
      rw [e]
      ring
    · rw [mov "x1" (by decide)]
      simp [alyCurve]
    · rw [mov "x2" (by decide)]
      simp [alyCurve]
    · rw [mov "x3" (by decide)]
      simp [alyCurve]

end Beluga.E2E
