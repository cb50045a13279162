import Verif.EndToEnd.CircuitFlow
import Verif.EndToEnd.ZermeloBack

/-!
# The one-loop circuit example: the boundary value problem has solutions (C100)

Currents and voltages that satisfy the first-order conditions are solutions of the boundary value problem that beluga makes of the example,
and there are some whenever the current can be reversed by a voltage that keeps away from the bounds.
-/

namespace Beluga.E2E

open Beluga.Sym Beluga.Sym.Expr Beluga.Num Beluga.Map Beluga.Opt Beluga.Rep

/-! ### The extremal -/

/-- The curve through a current and a voltage. -/
noncomputable def circCurve (R L i₀ m M α β e : ℝ) (I W : ℝ → ℝ) (t : ℝ) : Env := fun s =>
  if s = "t" then t else if s = "i" then I t else if s = "u" then W t else if s = "u_min" then m else if s = "u_max" then M else
  if s = "i_0" then i₀ else if s = "Rc" then R else if s = "L" then L else if s = "lu" then α else if s = "lq" then β else
  if s = "eps1" then e else 0

/-- The price as a costate. -/
noncomputable def circLam (P : ℝ → ℝ) (t : ℝ) : Name → ℝ := fun s => if s = "i" then P t else 0

theorem circuit_ham (U : Name → Nat → ℝ → ℝ) {B : ℝ → ℝ → ℝ → ℝ → ℝ} (hB : Barriers B) (l : Name → ℝ) (σ : Env) :
    (userOcp U id B circuit).ham l σ = σ "lu" * σ "u" ^ 2 / 2 + σ "lq" * (σ "i" - σ "i_0") ^ 2 / 2 +
      fine (σ "eps1") (σ "u_min") (σ "u_max") (σ "u") + l "i" * (-σ "Rc" / σ "L" * σ "i" + σ "u" / σ "L") := by
  have k := circuit_path U B σ
  rw [hB.secant] at k
  rw [Ocp.ham, k, fine]
  simp [userOcp, circuit, eval]

theorem circuit_start (U : Name → Nat → ℝ → ℝ) (B : ℝ → ℝ → ℝ → ℝ → ℝ) (ν : Nat → ℝ) (σ : Env) :
    lagrange (userOcp U id B circuit).costInitial (userOcp U id B circuit).initial ν σ = ν 0 * (σ "i" + σ "i_0") + ν 1 * σ "t" := by
  simp [lagrange, userOcp, circuit, penalties, Con.twoSided, List.filter, eval]

theorem circuit_stop (U : Name → Nat → ℝ → ℝ) (B : ℝ → ℝ → ℝ → ℝ → ℝ) (ν : Nat → ℝ) (σ : Env) :
    lagrange (userOcp U id B circuit).costTerminal (userOcp U id B circuit).terminal ν σ = ν 0 * (σ "i" - σ "i_0") + ν 1 * (σ "t" - 1) := by
  simp [lagrange, userOcp, circuit, penalties, Con.twoSided, List.filter, eval, eval_sub]

theorem Conducts.extremal (U : Name → Nat → ℝ → ℝ) {B : ℝ → ℝ → ℝ → ℝ → ℝ} (hB : Barriers B) {R L i₀ m M α β e : ℝ} {I P W : ℝ → ℝ}
    (h : Conducts R L i₀ m M α β e I P W) : Extremal (userOcp U id B circuit) 0 1 (circCurve R L i₀ m M α β e I W) (circLam P)
      (fun i => if i = 0 then -P 0 else (userOcp U id B circuit).ham (circLam P 0) (circCurve R L i₀ m M α β e I W 0))
      (fun i => if i = 0 then P 1 else -(userOcp U id B circuit).ham (circLam P 1) (circCurve R L i₀ m M α β e I W 1)) := by
  refine ⟨?_, ?_, ?_, ?_, ?_, ?_, ?_, ?_, ?_, ?_, ?_⟩
  · intro t _
    simp [userOcp, circuit, circCurve]
  · intro s hs t _
    simp only [userOcp, circuit, List.mem_cons, List.not_mem_nil, or_false] at hs
    rcases hs with rfl | rfl | rfl | rfl | rfl | rfl | rfl | rfl <;> simp [circCurve]
  · intro p hp t ht
    simp only [userOcp, circuit, List.map_cons, List.map_nil, List.mem_cons, List.not_mem_nil, or_false] at hp
    subst hp
    simp only [id, circuit_rate]
    simp only [circCurve, String.reduceEq, if_true, if_false]
    exact h.law t ht
  · intro p hp t ht
    simp only [userOcp, circuit, List.map_cons, List.map_nil, List.mem_cons, List.not_mem_nil, or_false] at hp
    subst hp
    refine ⟨β * (I t - i₀) - R / L * P t, ?_, ?_⟩
    · simp only [HasPartial, circuit_ham U hB, Function.update_apply, String.reduceEq, if_false, if_true]
      simp only [circLam, circCurve, String.reduceEq, if_true, if_false]
      refine ((((((((hasDerivAt_id (I t)).sub_const i₀).pow 2).const_mul β).div_const 2).const_add (α * W t ^ 2 / 2)).add_const
        (fine e m M (W t))).add ((((hasDerivAt_id (I t)).const_mul (-R / L)).add_const (W t / L)).const_mul (P t))).congr_deriv ?_
      simp
      ring
    · simp only [circLam, if_true]
      exact (h.price t ht).congr_deriv (by ring)
  · intro u hu t ht
    have hu : u = "u" := by simpa [userOcp, circuit, epsControls] using hu
    subst hu
    simp only [HasPartial, circuit_ham U hB, Function.update_apply, String.reduceEq, if_false, if_true]
    simp only [circLam, circCurve, String.reduceEq, if_true, if_false]
    have k := ((h.balance t ht).add_const (β * (I t - i₀) ^ 2 / 2)).add
      ((((hasDerivAt_id (W t)).div_const L).const_add (-R / L * I t)).const_mul (P t))
    have e1 : (fun v => α * v ^ 2 / 2 + β * (I t - i₀) ^ 2 / 2 + fine e m M v + P t * (-R / L * I t + v / L)) =
        (fun v => α * v ^ 2 / 2 + fine e m M v + β * (I t - i₀) ^ 2 / 2) + fun v => P t * (-R / L * I t + id v / L) := by
      funext v
      simp only [Pi.add_apply, id]
      ring
    rw [e1]
    refine k.congr_deriv ?_
    ring
  · intro c hc
    simp only [userOcp, circuit, Con.twoSided, List.filter, Option.isSome, Bool.and_false, Bool.not_false, List.map_cons, List.map_nil,
      List.mem_cons, List.not_mem_nil, or_false] at hc
    rcases hc with rfl | rfl <;> simp [circCurve, eval, h.start]
  · intro c hc
    simp only [userOcp, circuit, Con.twoSided, List.filter, Option.isSome, Bool.and_false, Bool.not_false, List.map_cons, List.map_nil,
      List.mem_cons, List.not_mem_nil, or_false] at hc
    rcases hc with rfl | rfl <;> simp [circCurve, eval, eval_sub, h.stop]
  · intro p hp
    simp only [userOcp, circuit, List.map_cons, List.map_nil, List.mem_cons, List.not_mem_nil, or_false] at hp
    subst hp
    simp only [HasPartial, circuit_start, Function.update_apply, String.reduceEq, if_true, if_false]
    exact ((((hasDerivAt_id _).add_const _).const_mul _).add_const _).congr_deriv (by simp [circLam])
  · intro p hp
    simp only [userOcp, circuit, List.map_cons, List.map_nil, List.mem_cons, List.not_mem_nil, or_false] at hp
    subst hp
    simp only [HasPartial, circuit_stop, Function.update_apply, String.reduceEq, if_true, if_false]
    exact ((((hasDerivAt_id _).sub_const _).const_mul _).add_const _).congr_deriv (by simp [circLam])
  · show HasPartial _ "t" _ _
    simp only [HasPartial, circuit_start, Function.update_apply, String.reduceEq, if_true, if_false]
    exact (((hasDerivAt_id _).const_mul _).const_add _).congr_deriv (by simp)
  · show HasPartial _ "t" _ _
    simp only [HasPartial, circuit_stop, Function.update_apply, String.reduceEq, if_true, if_false]
    exact ((((hasDerivAt_id _).sub_const _).const_mul _).const_add _).congr_deriv (by simp)

/-! ### What beluga makes of the problem -/

/-- An expression without logarithms, roots and functions of the user. -/
def tidy : Expr → Bool
  | num _ | pi | sym _ => true
  | add a b | mul a b => tidy a && tidy b
  | inv a => tidy a
  | pow a _ => tidy a
  | fn f a => tidy a && (match f with | .sin | .cos | .exp | .atan => true | _ => false)

theorem smooth_of_tidy {U : Name → Nat → ℝ → ℝ} {ρ : Name → ℝ} :
    ∀ {e : Expr}, tidy e = true → (∀ d ∈ denoms e, eval (real U) ρ d ≠ 0) → Smooth U ρ e
  | num _, _, _ | pi, _, _ | sym _, _, _ => trivial
  | add a b, h, hd | mul a b, h, hd => by
    simp only [tidy, Bool.and_eq_true] at h
    exact ⟨smooth_of_tidy h.1 fun d hm => hd d (List.mem_append_left _ hm), smooth_of_tidy h.2 fun d hm => hd d (List.mem_append_right _ hm)⟩
  | inv a, h, hd => ⟨smooth_of_tidy (e := a) h fun d hm => hd d (List.mem_cons_of_mem _ hm), hd a List.mem_cons_self⟩
  | pow a _, h, hd => smooth_of_tidy (e := a) h hd
  | fn f a, h, hd => by
    simp only [tidy, Bool.and_eq_true] at h
    refine ⟨smooth_of_tidy h.1 hd, ?_⟩
    have h2 := h.2
    cases f <;> first | trivial | cases h2

def circQ : Prob := match primal brachS circuit with
  | .ok p => p
  | .error _ => {}

theorem circQ_ok : primal brachS circuit = .ok circQ := by
  have : (match primal brachS circuit with | .ok _ => true | .error _ => false) = true := by decide +kernel
  rw [circQ]
  cases h : primal brachS circuit with
  | ok p => rfl
  | error e => rw [h] at this; cases this

/-- The boundary value problem. -/
def circBvp : Prob := match indirect brachS {} circuit with
  | .ok p => p
  | .error _ => {}

theorem circBvp_ok : indirect brachS {} circuit = .ok circBvp := by
  have : (match indirect brachS {} circuit with | .ok _ => true | .error _ => false) = true := by decide +kernel
  rw [circBvp]
  cases h : indirect brachS {} circuit with
  | ok p => rfl
  | error e => rw [h] at this; cases this

/-- The distance of the bounds and the cosine in the penalty. -/
def circWidth : Expr := sym "u_max" - sym "u_min"

def circSecant : Expr := fn .cos (Expr.pi / 2 * (2 * sym "u" - sym "u_max" - sym "u_min") / circWidth)

/-- The Hamiltonian. -/
def circH : Expr := hamiltonianOf (sym "lu" * pow (sym "u") 2 / 2 + sym "lq" * pow (sym "i" - sym "i_0") 2 / 2 + sym "eps1" * (1 / circSecant - 1))
  [⟨"i", -(sym "Rc") / sym "L" * sym "i" + sym "u" / sym "L"⟩, ⟨"t", 1⟩]

/-- The denominators. -/
def circDenoms : List Expr := [2, sym "L", circWidth, circSecant]

theorem circQ_facts : (tidy circQ.costPath = true ∧ ∀ e ∈ denoms circQ.costPath, e ∈ circDenoms) ∧
    (∀ d ∈ circQ.states, tidy d.eom = true ∧ ∀ e ∈ denoms d.eom, e ∈ circDenoms) ∧
    (tidy circQ.costInitial = true ∧ denoms circQ.costInitial = []) ∧ (tidy circQ.costTerminal = true ∧ denoms circQ.costTerminal = []) ∧
    (∀ c ∈ circQ.initial ++ circQ.terminal, tidy c.expr = true ∧ denoms c.expr = []) ∧ circQ.controls = ["u"] ∧
    hexpr circQ = circH ∧ tidy ((hexpr circQ).diff "u") = true ∧ ∀ e ∈ denoms ((hexpr circQ).diff "u"), e ∈ circDenoms := by decide +kernel

theorem circBvp_facts : (∀ d ∈ circBvp.states, ∀ e ∈ denoms d.eom, e ∈ (detE 1 fun _ _ => (circH.diff "u").diff "u") :: circDenoms) ∧
    circBvp.controls = [] ∧ circBvp.controlLaw = [] ∧ circBvp.omega = none := by decide +kernel

theorem circH_second {U : Name → Nat → ℝ → ℝ} {σ : Env} (hw : σ "u_max" - σ "u_min" ≠ 0)
    (hc : Real.cos (Real.pi / 2 * (2 * σ "u" - σ "u_max" - σ "u_min") / (σ "u_max" - σ "u_min")) ≠ 0) :
    eval (real U) σ ((circH.diff "u").diff "u") = σ "lu" + σ "eps1" * (Real.pi / (σ "u_max" - σ "u_min")) ^ 2 *
      (1 / Real.cos (Real.pi / 2 * (2 * σ "u" - σ "u_max" - σ "u_min") / (σ "u_max" - σ "u_min")) +
      2 * Real.sin (Real.pi / 2 * (2 * σ "u" - σ "u_max" - σ "u_min") / (σ "u_max" - σ "u_min")) ^ 2 /
        Real.cos (Real.pi / 2 * (2 * σ "u" - σ "u_max" - σ "u_min") / (σ "u_max" - σ "u_min")) ^ 3) := by
  have e1 : ∀ v, (real U).fn .cos v = Real.cos v := fun _ => rfl
  have e2 : ∀ v, (real U).fn .sin v = Real.sin v := fun _ => rfl
  have e3 : (real U).pi = Real.pi := rfl
  have d1 : ∀ a b : Expr, (a - b).diff "u" = add (a.diff "u") (add (mul (num 0) b) (mul (num (-1)) (b.diff "u"))) := fun _ _ => rfl
  have d2 : ∀ a b : Expr, (a / b).diff "u" = add (mul (a.diff "u") (inv b)) (mul a (mul (num (-1)) (mul (b.diff "u") (pow (inv b) 2)))) :=
    fun _ _ => rfl
  have d3 : ∀ a b : Expr, (a * b).diff "u" = add (mul (a.diff "u") b) (mul a (b.diff "u")) := fun _ _ => rfl
  have d4 : ∀ a b : Expr, (a + b).diff "u" = add (a.diff "u") (b.diff "u") := fun _ _ => rfl
  have d5 : ∀ a : Expr, (-a).diff "u" = add (mul (num 0) a) (mul (num (-1)) (a.diff "u")) := fun _ => rfl
  have d6 : ∀ n : Nat, (OfNat.ofNat n : Expr).diff "u" = num 0 := fun _ => rfl
  have a1 : eval (real U) σ (Expr.pi / 2 * (2 * sym "u" - sym "u_max" - sym "u_min") / circWidth) =
      Real.pi / 2 * (2 * σ "u" - σ "u_max" - σ "u_min") / (σ "u_max" - σ "u_min") := by
    simp [circWidth, eval, e3, eval_sub]
  have a2 : eval (real U) σ ((Expr.pi / 2 * (2 * sym "u" - sym "u_max" - sym "u_min") / circWidth).diff "u") =
      Real.pi / (σ "u_max" - σ "u_min") := by
    simp [circWidth, d1, d2, d3, d6, diff, eval, e3]
    ring
  have a3 : eval (real U) σ (((Expr.pi / 2 * (2 * sym "u" - sym "u_max" - sym "u_min") / circWidth).diff "u").diff "u") = 0 := by
    simp [circWidth, d1, d2, d3, d6, diff, eval, e3]
  simp only [circH, circSecant, hamiltonianOf, List.foldl]
  generalize Real.pi / 2 * (2 * σ "u" - σ "u_max" - σ "u_min") / (σ "u_max" - σ "u_min") = A at *
  generalize Expr.pi / 2 * (2 * sym "u" - sym "u_max" - sym "u_min") / circWidth = X at *
  simp [lamName, d1, d2, d3, d4, d5, d6, diff, dfn, eval, e1, e2, a1, a2, a3]
  generalize Real.pi / (σ "u_max" - σ "u_min") = c
  field_simp
  ring

/-! ### Properties -/

/-- Every current and voltage that satisfy the first-order conditions are a solution of the boundary value problem that beluga makes of the
example with its default options, and the solution has the regularity that the other theorems assume. -/
theorem C100_complete (U : Name → Nat → ℝ → ℝ) {R L i₀ m M α β e : ℝ} {I P W : ℝ → ℝ} (h : Conducts R L i₀ m M α β e I P W) (hL : 0 < L)
    (hl : m < M) (hα : 0 < α) (he : 0 < e) :
    ∃ ρ, Solves U circBvp 0 1 ρ ∧ Regular brachS U circQ circBvp 0 1 ρ ∧ 0 < ρ 0 "_delta_t" ∧
      (∀ t ∈ Set.Icc (0 : ℝ) 1, DifferentiableAt ℝ (fun τ => ρ τ "u") t) ∧
      (∀ τ, circuit.constants.map (ρ τ) = [m, M, i₀, R, L, α, β, e]) ∧ ∀ τ, ρ τ "t" = τ ∧ ρ τ "i" = I τ ∧ ρ τ "u" = W τ := by
  obtain ⟨q, B, hq, hB, H⟩ := C71_complete_partial (luSound_cramer brachS rfl) circuit_stated (o := {}) rfl (by decide) circBvp_ok
  obtain rfl : circQ = q := Except.ok.inj (circQ_ok.symm.trans hq)
  have hx := h.extremal U hB
  have mv : (userOcp U id B circuit).moving = ["i", "u"] := by
    simp [Ocp.moving, userOcp, circuit, epsControls]
  obtain ⟨⟨ρ, hρ, -⟩, K⟩ := H U id (circuit_completes U) 0 1 _ _ _ _ hx (by
      intro s hs t ht
      have hs : s = "u" := by simpa [userOcp, circuit, epsControls] using hs
      subst hs
      simp only [circCurve, String.reduceEq, if_true, if_false]
      exact h.smooth t ht) (by
      intro s _ hs h2 t _
      rw [mv] at hs
      simp only [List.mem_cons, List.not_mem_nil, or_false, not_or] at hs
      have h2 : s ≠ "t" := h2
      simp only [circCurve, hs.1, hs.2, h2, if_false]) 0 1 1 one_pos one_pos (by simp) (by ring)
  have nm : ∀ s ∈ circuit.constants, s ∉ ["i", "u"] ∧ s ≠ "t" ∧ s ≠ "_lam_" ++ "i" ∧
      s ≠ "_lam_t" ∧ s ≠ "_tau" ∧ s ≠ "_t" ∧ ¬ Reserved s := by decide +kernel
  have cst : ∀ s, s ∈ circuit.constants → ∀ τ, ρ τ s = circCurve R L i₀ m M α β e I W 0 s := by
    intro s hs τ
    obtain ⟨n1, n2, n3, n6, n7, n8, n9⟩ := nm s hs
    have h1 : s ∉ (userOcp U id B circuit).moving := by
      rw [mv]
      exact n1
    rw [hρ.rest s h1 n2 (by
        intro x hx
        have : x.1 = "i" := by
          simp only [userOcp, circuit, List.map_cons, List.map_nil, List.mem_cons, List.not_mem_nil, or_false] at hx
          subst hx
          rfl
        rw [this]
        exact n3) n6 n7 τ]
    exact hρ.plain s n9 h1 n2 n8
  have mov : ∀ s, s ∈ ["i", "u"] → ∀ τ, ρ τ s = circCurve R L i₀ m M α β e I W τ s := by
    intro s hs τ
    rw [hρ.moving s (by rw [mv]; exact hs) τ, zero_add, one_mul, sub_zero]
  have cm : ∀ τ, ρ τ "u_min" = m := fun τ => by
    rw [cst "u_min" (by decide)]
    simp [circCurve]
  have cM : ∀ τ, ρ τ "u_max" = M := fun τ => by
    rw [cst "u_max" (by decide)]
    simp [circCurve]
  have cL : ∀ τ, ρ τ "L" = L := fun τ => by
    rw [cst "L" (by decide)]
    simp [circCurve]
  have cα : ∀ τ, ρ τ "lu" = α := fun τ => by
    rw [cst "lu" (by decide)]
    simp [circCurve]
  have ce : ∀ τ, ρ τ "eps1" = e := fun τ => by
    rw [cst "eps1" (by decide)]
    simp [circCurve]
  have cu : ∀ τ, ρ τ "u" = W τ := fun τ => by
    rw [mov "u" (by decide)]
    simp [circCurve]
  have hd : M - m ≠ 0 := (sub_pos.2 hl).ne'
  have cospos : ∀ t ∈ Set.Icc (0 : ℝ) 1, 0 < Real.cos (Real.pi / 2 * (2 * W t - M - m) / (M - m)) := by
    intro t ht
    obtain ⟨k1, k2⟩ := h.inside t ht
    have hd := sub_pos.2 hl
    have hp := Real.pi_pos
    refine Real.cos_pos_of_mem_Ioo ⟨?_, ?_⟩
    · rw [lt_div_iff₀ hd]
      nlinarith
    · rw [div_lt_iff₀ hd]
      nlinarith
  have snd : ∀ t ∈ Set.Icc (0 : ℝ) 1, 0 < eval (real U) (ρ t) ((circH.diff "u").diff "u") := by
    intro t ht
    have k := cospos t ht
    rw [circH_second (by rw [cm, cM]; exact hd) (by rw [cm, cM, cu]; exact k.ne'), cm, cM, cu, cα, ce]
    positivity
  have good : ∀ t ∈ Set.Icc (0 : ℝ) 1, ∀ d ∈ circDenoms, eval (real U) (ρ t) d ≠ 0 := by
    intro t ht d hd'
    have e1 : ∀ v, (real U).fn .cos v = Real.cos v := fun _ => rfl
    have e3 : (real U).pi = Real.pi := rfl
    simp only [circDenoms, List.mem_cons, List.not_mem_nil, or_false] at hd'
    rcases hd' with rfl | rfl | rfl | rfl
    · rw [eval_two]
      exact two_ne_zero
    · change ρ t "L" ≠ 0
      rw [cL]
      exact hL.ne'
    · simp only [circWidth, eval_sub, eval]
      rw [cm, cM]
      exact hd
    · have a1 : eval (real U) (ρ t) circSecant = Real.cos (Real.pi / 2 * (2 * W t - M - m) / (M - m)) := by
        rw [← cm t, ← cM t, ← cu t]
        simp [circSecant, circWidth, eval, e1, e3, eval_sub]
      rw [a1]
      exact (cospos t ht).ne'
  obtain ⟨f1, f2, f3, f4, f5, f6, f7, f8, f9⟩ := circQ_facts
  obtain ⟨b1, b2, b3, b4⟩ := circBvp_facts
  have start : SmoothStart circQ U (ρ 0) :=
    ⟨smooth_of_tidy f3.1 (by simp [f3.2]), fun c hc => smooth_of_tidy (f5 c (List.mem_append_left _ hc)).1 (by
      simp [(f5 c (List.mem_append_left _ hc)).2])⟩
  have stop : SmoothStop circQ U (ρ 1) :=
    ⟨smooth_of_tidy f4.1 (by simp [f4.2]), fun c hc => smooth_of_tidy (f5 c (List.mem_append_right _ hc)).1 (by
      simp [(f5 c (List.mem_append_right _ hc)).2])⟩
  have reg : Regular brachS U circQ circBvp 0 1 ρ := by
    refine ⟨fun t ht => ⟨smooth_of_tidy f1.1 fun d hd => good t ht d (f1.2 d hd), fun d hd => smooth_of_tidy (f2 d hd).1 fun x hx =>
      good t ht x ((f2 d hd).2 x hx)⟩, start, stop, ?_, ?_, ?_, ?_, ?_⟩
    · intro t ht u hu
      rw [f6, List.mem_singleton] at hu
      subst hu
      exact smooth_of_tidy f8 fun d hd => good t ht d (f9 d hd)
    · intro t ht d hd
      refine defined_of_denoms fun x hx => ?_
      rcases List.mem_cons.1 (b1 d hd x hx) with rfl | k
      · rw [eval_detE]
        simpa using (snd t ht).ne'
      · exact good t ht x k
    · intro t _ opt ho
      rw [b3] at ho
      cases ho
    · intro t _ u hu
      rw [b2] at hu
      cases hu
    · intro om ho
      rw [b4] at ho
      cases ho
  refine ⟨ρ, K ρ hρ reg (fun h => by cases h) ?_ (fun h => by cases h), reg, ?_, ?_, ?_, ?_⟩
  · intro _ t ht v hv j hj
    rw [f6] at hv hj
    have hj : j = 0 := by simpa using hj
    subst hj
    have := hv 0 (by simp)
    rw [f7] at this
    simpa [(snd t ht).ne'] using this
  · have e : ρ 0 "_delta_t" = 1 := hρ.duration rfl
    rw [e]
    exact one_pos
  · intro t ht
    rw [show (fun τ => ρ τ "u") = W from funext cu]
    exact h.smooth t ht
  · intro τ
    rw [List.map_congr_left fun s hs => cst s hs τ]
    simp [circuit, circCurve]
  · intro τ
    refine ⟨?_, ?_, cu τ⟩
    · have e : ρ τ "t" = 0 + 1 * (τ - 0) := hρ.time τ
      rw [e]
      ring
    · rw [mov "i" (by decide)]
      simp [circCurve]

/-- If the current can be reversed by some measurable voltage that keeps a fraction of the interval away from the bounds, then the boundary
value problem that beluga makes of the example has a solution, and the voltage of the solution lies between the bounds. -/
theorem C100_exists (U : Name → Nat → ℝ → ℝ) {R L i₀ m M α β e : ℝ} (hL : 0 < L) (hl : m < M) (hα : 0 < α) (hβ : 0 ≤ β) (he : 0 < e)
    {J Z : ℝ → ℝ} {μ : ℝ} (hμ : 0 < μ) (hJ : Charges R L i₀ m M J Z)
    (room : ∀ t ∈ Set.Icc (0 : ℝ) 1, m + μ * (M - m) ≤ Z t ∧ Z t ≤ M - μ * (M - m)) :
    indirect brachS {} circuit = .ok circBvp ∧ ∃ ρ, Solves U circBvp 0 1 ρ ∧ Regular brachS U circQ circBvp 0 1 ρ ∧ 0 < ρ 0 "_delta_t" ∧
      (∀ t ∈ Set.Icc (0 : ℝ) 1, DifferentiableAt ℝ (fun τ => ρ τ "u") t) ∧
      (∀ τ, circuit.constants.map (ρ τ) = [m, M, i₀, R, L, α, β, e]) ∧ (∀ τ, ρ τ "t" = τ) ∧ ∀ t ∈ Set.Icc (0 : ℝ) 1, m < ρ t "u" ∧ ρ t "u" < M := by
  obtain ⟨I, P, W, h⟩ := conducts_exists hL hl hα hβ he hμ hJ room
  obtain ⟨ρ, s1, s2, s3, s4, s5, s6⟩ := C100_complete U h hL hl hα he
  refine ⟨circBvp_ok, ρ, s1, s2, s3, s4, s5, fun τ => (s6 τ).1, fun t ht => ?_⟩
  rw [(s6 t).2.2]
  exact h.inside t ht

/-- With the constants at the end of the continuation of the example (OneLoopCircuit.py:11-13, 27-34, 77) there is a solution. -/
example : ∃ ρ, Solves (fun _ _ _ => 0) circBvp 0 1 ρ ∧ circuit.constants.map (ρ 0) = [-300, 300, 1, 145, 3.5, 1, 100000, 0.01] ∧
    ∀ t ∈ Set.Icc (0 : ℝ) 1, -300 < ρ t "u" ∧ ρ t "u" < 300 := by
  obtain ⟨J, Z, hJ, hZ⟩ := circuit_steady
  obtain ⟨-, ρ, s1, -, -, -, s5, -, s7⟩ := C100_exists (fun _ _ _ => 0) (by norm_num) (by norm_num) (α := 1) one_pos (β := 100000) (by norm_num)
    (e := 0.01) (by norm_num) (μ := 1 / 4) (by norm_num) hJ hZ
  exact ⟨ρ, s1, s5 0, s7⟩

end Beluga.E2E
