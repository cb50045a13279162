import Verif.EndToEnd.Defect

/-! # The cost is continuous along the returned curve -/

namespace Beluga.E2E

open Beluga.Sym Beluga.Sym.Expr Beluga.Num Beluga.Map Beluga.Opt

/-- There is one penalty function. -/
theorem barriers_unique {B C : ℝ → ℝ → ℝ → ℝ → ℝ} (hB : Barriers B) (hC : Barriers C) : B = C := by
  funext a lo hi x
  rw [hB.secant, hC.secant]

/-- An expression is continuous along a curve where it is differentiable. -/
theorem smooth_continuous {U : Name → Nat → ℝ → ℝ} {ρ : ℝ → Env} {D : Set ℝ} {t : ℝ} : ∀ {e : Expr}, Smooth U (ρ t) e →
    (∀ s ∈ e.free, ContinuousWithinAt (fun τ => ρ τ s) D t) → ContinuousWithinAt (fun τ => eval (real U) (ρ τ) e) D t
  | num _, _, _ => continuousWithinAt_const
  | .pi, _, _ => continuousWithinAt_const
  | sym s, _, h => h s (by simp [Expr.free])
  | add a b, hs, h => (smooth_continuous hs.1 fun s hm => h s (by simp [Expr.free, hm])).add
      (smooth_continuous hs.2 fun s hm => h s (by simp [Expr.free, hm]))
  | mul a b, hs, h => (smooth_continuous hs.1 fun s hm => h s (by simp [Expr.free, hm])).mul
      (smooth_continuous hs.2 fun s hm => h s (by simp [Expr.free, hm]))
  | inv a, hs, h => (smooth_continuous hs.1 fun s hm => h s (by simpa [Expr.free] using hm)).inv₀ hs.2
  | pow a n, hs, h => (smooth_continuous (e := a) hs fun s hm => h s (by simpa [Expr.free] using hm)).pow n
  | fn f a, hs, h => by
    have h1 := smooth_continuous hs.1 fun s hm => h s (by simpa [Expr.free] using hm)
    exact ContinuousAt.comp_continuousWithinAt (f := fun τ => eval (real U) (ρ τ) a) (g := (real U).fn f) (hasDerivAt_fn hs.2).continuousAt h1

/-- The running cost of the problem before dualisation is the stated one with the penalties. -/
theorem path_cost {S : Sympy} {p q : Prob} (hp : Stated p) (hq : primal S p = .ok q) {B : ℝ → ℝ → ℝ → ℝ → ℝ} (hB : Barriers B)
    {U : Name → Nat → ℝ → ℝ} {Q : Env → Env} (hQ : Completes U p Q) (σ : Env) :
    (userOcp U Q B p).path σ = eval (real U) σ q.costPath := by
  obtain ⟨p3, f, f2, f3, hf⟩ := front hp hq
  obtain ⟨C, hC, hocp⟩ := hf.ocp
  rw [barriers_unique hB hC, ← hocp U Q hQ]
  rfl

/-- The independent variable of the generated problem. -/
theorem indirect_ind {S : Sympy} (hL : LuSound S) {o : Opts} {p p' : Prob} (hp : Stated p) (hm : o.momentumShift = true)
    (hd : o.method ≠ .other) (h : indirect S o p = .ok p') : p'.ind = "_tau" ∨ p'.ind = "_" ++ p.ind := by
  obtain ⟨q, ctl, hq, hctl, h⟩ := indirect_split hm h
  obtain ⟨p3, f, f2, f3, hf⟩ := front hp hq
  have hcl := hf.clean hp
  rw [List.append_assoc, List.append_assoc, List.cons_append, List.cons_append, List.nil_append, runSteps_cons] at h
  obtain ⟨qd, hdual, h⟩ := bind_ok h
  rw [runSteps_cons] at h
  obtain ⟨q1, h1, h⟩ := bind_ok h
  rw [← List.append_assoc] at h
  obtain ⟨-, -, -, -, -, -, t7⟩ := tail_ok h
  have hD := dualize_any hL hcl hd hdual
  have hi : q1.ind = q.ind := by
    rcases hctl with ⟨rfl, -⟩ | ⟨rfl, -⟩
    · obtain ⟨dhdu, chain, e, -⟩ := algebraic_ok hD.ham h1
      have g : q1.ind = qd.ind := by rw [e]
      rw [g, hD.ind]
    · exact (differential_any hL hD h1).ind
  rw [t7, hi, hf.ind]
  split
  · exact Or.inl rfl
  · exact Or.inr rfl

/-- The running cost is continuous along a curve through the arrays. -/
theorem path_continuous {S : Sympy} (hL : LuSound S) {o : Opts} {p p' q : Prob} (hp : Stated p) (hm : o.momentumShift = true)
    (hd : o.method ≠ .other) (h : indirect S o p = .ok p') (hq : primal S p = .ok q) {B : ℝ → ℝ → ℝ → ℝ → ℝ} (hB : Barriers B)
    {U : Name → Nat → ℝ → ℝ} {Q : Env → Env} (hQ : Completes U p Q) {a b : ℝ} {y : ℝ → List ℝ} {pr pc k : List ℝ} {ρ : ℝ → Env}
    (hr : Reads U p' a b y pr pc k ρ) (hreg : Regular S U q p' a b ρ) {δ : ℝ} (hs : Strays U p' δ a b y pr k) :
    ContinuousOn (fun t => (userOcp U Q B p).path (ρ t)) (Set.Icc a b) := by
  simp only [path_cost hp hq hB hQ]
  obtain ⟨p3, f, f2, f3, hf⟩ := front hp hq
  intro t ht
  refine smooth_continuous (hreg.rates t ht).1 fun s hsf => ?_
  by_cases h1 : s ∈ sts p'
  · obtain ⟨d, hd, rfl⟩ := List.mem_map.1 h1
    obtain ⟨v, g1, g2⟩ := hs t ht
    have hv := atPoint_val hr ht g1
    obtain ⟨i, hi, rfl⟩ := List.mem_iff_getElem.1 hd
    obtain ⟨w, g3, -⟩ := g2 i (by rw [hv]; simpa using hi)
    have e1 : (fun τ => (y τ).getD i 0) = fun τ => ρ τ p'.states[i].name := by
      funext τ
      rw [← hr.states τ, sts]
      simp [hi]
    rw [e1] at g3
    exact g3.continuousAt.continuousWithinAt
  by_cases h2 : s ∈ p'.controls
  · exact (hreg.controls t ht s h2).continuousAt.continuousWithinAt
  have hpl : Plain p s := by
    rw [hf.costs.2.1] at hsf
    exact (hf.good _ (by simp [exprs]) s hsf).1
  have h3 : s ≠ p'.ind := by
    rcases indirect_ind hL hp hm hd h with e | e
    · rw [e]; exact fun e => hpl.1 (Or.inr (Or.inr (Or.inr (Or.inr e))))
    · rw [e]; exact hpl.2
  have e : (fun τ => ρ τ s) = fun _ => ρ t s := funext fun τ => hr.others s h1 h2 h3 τ t
  rw [e]
  exact continuousWithinAt_const

theorem NumSol.strays {U : Name → Nat → ℝ → ℝ} {p : Prob} {a b : ℝ} {y : ℝ → List ℝ} {pr pc k : List ℝ}
    (h : NumSol U p a b y pr pc k) : Strays U p 0 a b y pr k := by
  intro t ht
  obtain ⟨v, h1, h2⟩ := h.rates t ht
  exact ⟨v, h1, fun i hi => ⟨_, h2 i hi, by simp, fun _ => rfl⟩⟩

/-- The running cost is continuous along the curve in the time of the user. -/
theorem Drawn.continuous {ρ : ℝ → Env} {a b t₀ c : ℝ} {x : ℝ → Env} {lam : ℝ → Name → ℝ} {ν₀ ν₁ : Nat → ℝ} (h : Drawn ρ a t₀ c x lam ν₀ ν₁)
    (hc : 0 < c) {g : Env → ℝ} (hg : ContinuousOn (fun t => g (ρ t)) (Set.Icc a b)) :
    ContinuousOn (fun t => g (x t)) (Set.Icc t₀ (t₀ + c * (b - a))) := by
  have e : (fun t => g (x t)) = (fun t => g (ρ t)) ∘ fun t => a + (t - t₀) / c := by
    funext t
    simp only [Function.comp_apply, h.curve]
  rw [e]
  refine hg.comp (Continuous.continuousOn (by fun_prop)) fun t ht => ?_
  have h1 : 0 ≤ (t - t₀) / c := div_nonneg (by linarith [ht.1]) hc.le
  have h2 : (t - t₀) / c ≤ b - a := by
    rw [div_le_iff₀ hc]
    linarith [ht.2]
  constructor <;> linarith

end Beluga.E2E
