import Verif.EndToEnd.Props
import Verif.Shooting.Props

/-!
# What the shooting solver returns is an extremal up to its tolerance (C75)

`run_continuation_set` hands the compiled functions to the solver (continuation.py:521-529).
-/

namespace Beluga.E2E

open Beluga.Sym Beluga.Sym.Expr Beluga.Num Beluga.Map Beluga.Opt Beluga.Rep
open Beluga.Shoot (Ivp IvpSound Complete NormSound Guess lastT Scipy Result)
open Beluga.Traj (Curve Simpson)

/-! ### Model -/

/-- `set_derivative_function(functional_problem.deriv_func)` (continuation.py:522): a function of three arguments. -/
noncomputable def eomFn (U : Name → Nat → ℝ → ℝ) (p : Prob) : Shoot.Fn ℝ
  | [y, pr, k] => derivFunc (real U) p y pr k
  | _ => .error .typeError

/-- `set_quadrature_function(functional_problem.quad_func)` (continuation.py:524). -/
noncomputable def quadFn (U : Name → Nat → ℝ → ℝ) (p : Prob) : Option (Shoot.Fn ℝ) :=
  (quadFunc p).map fun f l => match l with
    | [y, pr, k] => f (real U) y pr k
    | _ => .error .typeError

/-- `set_boundarycondition_function(functional_problem.bc_func)` (continuation.py:525): with quadratures a function of seven
arguments, without of five (NumericProblem.py:161-226). -/
noncomputable def bcFn (U : Name → Nat → ℝ → ℝ) (p : Prob) : Shoot.Fn ℝ
  | [y0, yf, pr, pc, k] => if p.quads.length > 0 then .error .typeError else bcFunc (real U) p y0 [] yf [] pr pc k
  | [y0, q0, yf, qf, pr, pc, k] => if p.quads.length > 0 then bcFunc (real U) p y0 q0 yf qf pr pc k else .error .typeError
  | _ => .error .typeError

/-- The shooting solver with the compiled functions of `p` (continuation.py:521-529) and the constants `k` of the guess; no
pool of processes. -/
noncomputable def shootEnv (ivp : Ivp ℝ) (simp : Simpson ℝ) (U : Name → Nat → ℝ → ℝ) (p : Prob) (k : List ℝ) : Shoot.Env ℝ where
  ivp := ivp
  simp := simp
  eom := eomFn U p
  quad := quadFn U p
  bc := bcFn U p
  const := k
  parallel := false

/-! ### Specification -/

/-- The curve `y` satisfies the compiled differential equations. -/
def Flows (U : Name → Nat → ℝ → ℝ) (p : Prob) (a b : ℝ) (y : ℝ → List ℝ) (pr k : List ℝ) : Prop :=
  ∀ t ∈ Set.Icc a b, ∃ v, derivFunc (real U) p (y t) pr k = .ok v ∧
    ∀ i (h : i < v.length), HasDerivAt (fun τ => (y τ).getD i 0) v[i] t

/-! ### Lemmas -/

theorem getD_at {α : Type} {l : List α} {i : Nat} {d : α} (h : i < l.length) : l.getD i d = l[i] := by simp [h]

theorem pairwise_bounds {ts : List ℝ} (h : ts.Pairwise (· < ·)) {x : ℝ} (hx : x ∈ ts) : ts.getD 0 0 ≤ x ∧ x ≤ lastT ts := by
  obtain ⟨i, hi, rfl⟩ := List.mem_iff_getElem.1 hx
  have hs := List.pairwise_iff_getElem.1 h
  rw [lastT, getD_at (by omega), getD_at (by omega)]
  constructor
  · rcases Nat.eq_zero_or_pos i with rfl | h0
    · exact le_refl _
    · exact (hs 0 i (by omega) hi h0).le
  · rcases Nat.lt_or_ge i (ts.length - 1) with h0 | h0
    · exact (hs i (ts.length - 1) hi (by omega) h0).le
    · have : i = ts.length - 1 := by omega
      subst this
      exact le_refl _

/-- The generated problem has no quadratures. -/
theorem indirect_quads {S : Sympy} (hL : LuSound S) {o : Opts} {p p' q : Prob} (hp : Stated p) (hm : o.momentumShift = true)
    (hd : o.method ≠ .other) (h : indirect S o p = .ok p') (hprimal : primal S p = .ok q) : p'.quads = [] := by
  obtain ⟨p1, g1, h⟩ := bind_ok h
  obtain ⟨steps, g2, h⟩ := bind_ok h
  obtain ⟨ineq, ctl, hineq, hctl, rfl⟩ := indirectSteps_ok g2
  have hsplit : (if o.momentumShift then [Step.momentumShift] else []) ++ ineq ++
        (if p1.switches.length > 0 then [.rashs] else []) ++ [.dualize o.method, ctl] ++
        (if o.normalizeTime then [.normalizeTime] else []) ++ [.squash] ++
        (if o.analyticalJacobian && o.controlMethod ≠ .algebraic then [.jacobians] else []) =
      (.momentumShift :: (ineq ++ if p1.switches.length > 0 then [.rashs] else [])) ++
        ([.dualize o.method, ctl] ++ (if o.normalizeTime then [.normalizeTime] else []) ++ [.squash] ++
        (if o.analyticalJacobian && o.controlMethod ≠ .algebraic then [.jacobians] else [])) := by
    rw [if_pos hm]
    simp
  rw [hsplit, runSteps_append] at h
  obtain ⟨q', hq, h⟩ := bind_ok h
  have e : primal S p = .ok q' := by
    rw [primal, g1]
    change (ineqSteps _ >>= _) = _
    rw [hineq]
    exact hq
  rw [hprimal] at e
  cases e
  obtain ⟨p3, f, f2, f3, hf⟩ := front hp hprimal
  obtain ⟨-, -, m3⟩ := dual_more hL (hf.clean hp) hd (hctl.imp And.left And.left) h
  rw [m3, hf.empty.2.2.2.1]

/-- The result of a converged run of the Armijo iteration with one arc: it reaches from the first to the last time of the guess, and
its ends satisfy the boundary conditions up to the tolerance. -/
theorem shooting_ends {ivp : Ivp ℝ} {simp : Simpson ℝ} {U : Name → Nat → ℝ → ℝ} {p : Prob} {k : List ℝ} (hq : p.quads = [])
    (hI : IvpSound ivp) (hC : Complete ivp) {S : Scipy ℝ}
    {norm : List ℝ → ℝ} (hN : NormSound norm) {newton : List ℝ → List ℝ → Py (List ℝ)} {o : Shoot.Opts ℝ} {alg : String}
    (halg : alg.toLower = "armijo") {fuel : Nat} (hfuel : 5 ≤ fuel) {nO nQ : Nat} {sol : Curve ℝ} (hG : Guess nO nQ sol)
    {pr pc : List ℝ} {r : Result ℝ}
    (h : Shoot.solve (shootEnv ivp simp U p k) S norm newton o alg fuel 1 sol pr pc = .ok (some r)) (hc : r.converged = true) :
    0 < r.t.length ∧ r.y.length = r.t.length ∧ (∀ τ ∈ r.t, τ ∈ Set.Icc (sol.t.getD 0 0) (lastT sol.t)) ∧
      r.t.getD 0 0 = sol.t.getD 0 0 ∧ lastT r.t = lastT sol.t ∧ (∀ x ∈ r.y, x.length = (r.y.getD 0 []).length) ∧
      (∃ v, derivFunc (real U) p (r.y.getD 0 []) r.p k = .ok v) ∧
      ∃ b, bcFunc (real U) p (r.y.getD 0 []) [] (r.y.getD (r.y.length - 1) []) [] r.p r.pn k = .ok b ∧ ∀ x ∈ b, |x| ≤ o.tol := by
  obtain ⟨⟨b, hb, hle⟩, arcs, hm, -⟩ := Shoot.C42_armijo_partial (E := shootEnv ivp simp U p k) hI hC rfl hN halg hfuel hG h hc
  obtain ⟨g, rfl⟩ := List.length_eq_one_iff.1 hm.number
  obtain ⟨y0, g', h1, h2⟩ := hm.solves 0 (by norm_num)
  cases h1
  have ht : r.t = g.t := by rw [hm.t]; simp [Shoot.stitch]
  have hy : r.y = Shoot.rows g.y := by rw [hm.y]; simp [Shoot.stitch]
  rw [← ht, ← hy, Shoot.junction_zero, zero_add, Shoot.junction_last sol one_pos] at h2
  have h2 : ivp (fun y => derivFunc (real U) p y r.p k) [sol.t.getD 0 0, lastT sol.t] y0 = .ok (r.t, r.y) := h2
  have hlast : lastT [sol.t.getD 0 0, lastT sol.t] = lastT sol.t := rfl
  have e0 : r.t.getD 0 0 = sol.t.getD 0 0 := by simpa using hI.first h2
  have e1 : lastT r.t = lastT sol.t := by rw [hC h2, hlast]
  have hst : r.y.getD 0 [] = y0 := hI.state h2
  refine ⟨hI.pos h2, hI.length h2, ?_, e0, e1, by rw [hst]; exact hI.width h2, ?_, b, ?_, hle⟩
  · intro τ hτ
    have := pairwise_bounds (hI.sorted h2 hG.lt) hτ
    rwa [e0, e1] at this
  · rw [hst]
    cases hv : derivFunc (real U) p y0 r.p k with
    | ok v => exact ⟨v, rfl⟩
    | error e =>
      have := hI.raises (rhs := fun y => derivFunc (real U) p y r.p k) (tspan := [sol.t.getD 0 0, lastT sol.t]) hv
      rw [this] at h2
      cases h2
  · change bcFn U p (Shoot.ends r k) = .ok b at hb
    rw [Shoot.ends] at hb
    split_ifs at hb
    · simpa [bcFn, hq] using hb
    · simp [bcFn, hq] at hb

/-- The first and the last sample of a curve. -/
theorem samples_ends {t : List ℝ} {ys : List (List ℝ)} {y : ℝ → List ℝ} (h : ys = t.map y) (hpos : 0 < t.length) :
    ys.getD 0 [] = y (t.getD 0 0) ∧ ys.getD (ys.length - 1) [] = y (lastT t) := by
  rw [h, lastT, getD_at (by simpa using hpos), List.getElem_map, getD_at hpos, getD_at (by simp; omega), List.getElem_map,
    getD_at (by omega)]
  simp

/-! ### Property -/

/-- If the shooting solver, run with the compiled functions of the generated problem (Armijo iteration, one arc, the defaults),
reports convergence, and the states that it returns are those of an exact solution `y` of the differential equations, then the tables
that the user gets are samples of a curve that satisfies the first-order necessary conditions of the stated problem up to the
tolerance of the solver.

`ρ` are the values of the symbols along `y` (`C73_reads`), at which the functions of the problem have to be differentiable.

Missing from the full property: errors of the integration, several arcs, the other algorithms (`C42`); everything that is missing
from `C74_converged_partial`.  For autoscaling see `C75_autoscaled_partial`. -/
theorem C75_shooting_partial {S : Sympy} (hL : LuSound S) {o : Opts} {p p' : Prob} (hp : Stated p)
    (hm : o.momentumShift = true) (hd : o.method ≠ .other) (hS : o.controlMethod = .algebraic → SolveSound S)
    (h : indirect S o p = .ok p') :
    ∃ q B, primal S p = .ok q ∧ Barriers B ∧
      ∀ U Q, Completes U p Q → ∀ (O : TrigOps ℝ) rule, O.sin = Real.sin →
      ∀ (ivp : Ivp ℝ) simp (Sc : Scipy ℝ) norm newton (so : Shoot.Opts ℝ) (alg : String) fuel nO nQ (sol : Curve ℝ) pr pc k
        (r : Result ℝ), IvpSound ivp → Complete ivp → NormSound norm →
        alg.toLower = "armijo" → 5 ≤ fuel → 0 ≤ so.tol → Guess nO nQ sol →
        Shoot.solve (shootEnv ivp simp U p' k) Sc norm newton so alg fuel 1 sol pr pc = .ok (some r) → r.converged = true →
        (∀ x ∈ r.p, 0 < x) →
      ∀ y, r.y = r.t.map y → Flows U p' (sol.t.getD 0 0) (lastT sol.t) y r.p k →
      ∀ ρ, Reads U p' (sol.t.getD 0 0) (lastT sol.t) y r.p r.pn k ρ → Regular S U q p' (sol.t.getD 0 0) (lastT sol.t) ρ →
      ∀ s s' : Sol ℝ, s.t = r.t → s.y = .rows p'.states.length r.y → s.dyn = r.p → s.const = k →
        invIndirect S O rule (real U) o p s = .ok s' →
        ∃ t₀ c x lam ν₀ ν₁, 0 < c ∧
          NearExtremal (userOcp U Q B p) so.tol (if o.controlMethod = .algebraic then 0 else so.tol) t₀
            (t₀ + c * (lastT sol.t - sol.t.getD 0 0)) x lam ν₀ ν₁ ∧
          s'.t = r.t.map (fun τ => t₀ + c * (τ - sol.t.getD 0 0)) ∧ Returned Q p x lam s' ∧ s'.const = k ∧
          (Rule rule → Shift rule → s'.cost = some (stated rule U p s'.t (fun i => Q (x (s'.t.getD i 0))) +
            penalised rule B U p s'.t fun i => Q (x (s'.t.getD i 0)))) ∧
          (o.controlMethod = .algebraic →
            Least S U q (userOcp U Q B p) t₀ (t₀ + c * (lastT sol.t - sol.t.getD 0 0)) x lam) ∧
          Drawn ρ (sol.t.getD 0 0) t₀ c x lam ν₀ ν₁ := by
  obtain ⟨q, B, hq, hB, key⟩ := C74_converged_partial hL hp hm hd hS h
  refine ⟨q, B, hq, hB, ?_⟩
  intro U Q hQ O rule hO ivp simp Sc norm newton so alg fuel nO nQ sol pr pc k r hI hC hN halg hfuel htol hG hrun hc hpos
  have hquads : p'.quads = [] := indirect_quads hL hp hm hd h hq
  obtain ⟨h1, -, h2, h3, h4, -, -, b, h5, h6⟩ := shooting_ends hquads hI hC hN halg hfuel hG hrun hc
  intro y hy hflow ρ hread hreg s s' e1 e2 e3 e4 hinv
  obtain ⟨f0, f1⟩ := samples_ends hy h1
  rw [f0, f1, h3, h4] at h5
  obtain ⟨t₀, c, x, lam, ν₀, ν₁, g1, g2, g3, g4, g5, -, -, g8⟩ := key U Q hQ O rule hO so.tol _ htol rfl _ _ y r.p r.pn k ρ
    hG.lt.le ⟨hflow, b, h5, h6⟩ hread hreg hpos s s' (by rw [e1]; exact List.ne_nil_of_length_pos h1) (by rw [e1]; exact h2)
    (by rw [e2, e1, hy]) e3 e4 hinv
  exact ⟨t₀, c, x, lam, ν₀, ν₁, g1, g2, by rw [g3, e1], g4, g5, g8⟩

end Beluga.E2E
