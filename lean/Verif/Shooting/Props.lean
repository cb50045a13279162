import Verif.Shooting.Ends
import Mathlib.Tactic.NormNum
import Mathlib.Algebra.Order.Ring.Abs
import Mathlib.Analysis.Real.Sqrt

/-!
# Properties of the shooting solver
-/

namespace Beluga.Shoot

set_option linter.unusedSectionVars false

open Beluga.Traj (Arr Curve Simpson getD_eq Fits FitsOrEmpty rowAt mix)

variable {K : Type} [Field K] [LinearOrder K] [IsStrictOrderedRing K]

/-- The parts of a successful run. -/
theorem solve_ok {E : Env K} {S : Scipy K} {norm : List K → K} {newton : List K → List K → Py (List K)} {o : Opts K} {alg : String}
    {fuel n : Nat} {sol : Curve K} {p pn : List K} {r : Result K} {nO nQ : Nat} (hG : Guess nO nQ sol)
    (h : solve E S norm newton o alg fuel n sol p pn = .ok (some r)) :
    ∃ gs x0 f out m, makeArcs sol n = .ok gs ∧ wrap gs p pn = .ok x0 ∧
      findRoot S norm newton o alg fuel (residual E gs ⟨nO, effective E.quad nQ, p.length, n⟩) x0 = .ok (some f) ∧
      shoot E gs ⟨nO, effective E.quad nQ, p.length, n⟩ f.x = .ok out ∧ message o f = .ok m ∧
      r = ⟨stitch (out.1.map fun a => a.t), stitch (out.1.map fun a => rows a.y), stitch (out.1.map fun a => rows a.q),
        out.2.1, out.2.2, f.converged, m, f.nIter⟩ := by
  rw [solve, hG.nStates, Py.ok_bind, hG.nQuads, Py.ok_bind] at h
  obtain ⟨gs, hgs, h⟩ := Py.bind_ok.1 h
  obtain ⟨x0, hx, h⟩ := Py.bind_ok.1 h
  obtain ⟨f, hf, h⟩ := Py.bind_ok.1 h
  cases f with
  | none => cases h
  | some f =>
    obtain ⟨out, ho, h⟩ := Py.bind_ok.1 h
    obtain ⟨m, hm, h⟩ := Py.bind_ok.1 h
    cases h
    exact ⟨gs, x0, f, out, m, hgs, hx, hf, ho, hm, rfl⟩

theorem arcs_pos {sol : Curve K} {n : Nat} {gs : List (Curve K)} {p pn x0 : List K} (hgs : makeArcs sol n = .ok gs)
    (hx : wrap gs p pn = .ok x0) : 0 < n := by
  rcases Nat.eq_zero_or_pos n with rfl | h
  · cases hgs
    cases hx
  · exact h

theorem armijo_alg {alg : String} (h : alg.toLower = "armijo") : alg ∉ minimizeAlgorithms ∧ alg ∉ rootAlgorithms := by
  have h1 : ∀ a ∈ minimizeAlgorithms, a.toLower ≠ "armijo" := by decide +kernel
  have h2 : ∀ a ∈ rootAlgorithms, a.toLower ≠ "armijo" := by decide +kernel
  exact ⟨fun hm => h1 _ hm h, fun hm => h2 _ hm h⟩

theorem fsolve_alg {alg : String} (h : alg.toLower = "fsolve") : alg ∉ minimizeAlgorithms ∧ alg ∉ rootAlgorithms := by
  have h1 : ∀ a ∈ minimizeAlgorithms, a.toLower ≠ "fsolve" := by decide +kernel
  have h2 : ∀ a ∈ rootAlgorithms, a.toLower ≠ "fsolve" := by decide +kernel
  exact ⟨fun hm => h1 _ hm h, fun hm => h2 _ hm h⟩

theorem normF_some (norm : List K → K) (v : List K) : normF norm (v.map some) = .val (norm v) := by
  rw [normF, if_neg (by simp)]
  congr 2
  simp

/-- **C42** The Armijo iteration, the default: `converged` means that the returned trajectory satisfies the boundary conditions,
and its arcs fit together, up to the tolerance.  (One of the algorithms; assuming that the integration reaches the end of every arc,
see `C42_truncated`.) -/
theorem C42_armijo_partial {E : Env K} (hI : IvpSound E.ivp) (hC : Complete E.ivp) (hser : E.parallel = false) {S : Scipy K}
    {norm : List K → K} (hN : NormSound norm) {newton : List K → List K → Py (List K)} {o : Opts K} {alg : String}
    (halg : alg.toLower = "armijo") {fuel n : Nat} (hfuel : 5 ≤ fuel) {nO nQ : Nat} {sol : Curve K} (hG : Guess nO nQ sol)
    {p pn : List K} {r : Result K} (h : solve E S norm newton o alg fuel n sol p pn = .ok (some r))
    (hc : r.converged = true) : Satisfied E sol n o.tol r := by
  obtain ⟨gs, x0, f, out, m, hgs, hx, hf, ho, hm, rfl⟩ := solve_ok hG h
  have hn := arcs_pos hgs hx
  obtain ⟨h1, h2⟩ := armijo_alg halg
  rw [findRoot, if_neg h1, if_neg h2, if_neg (by rw [halg]; decide), if_pos halg] at hf
  obtain ⟨s, hs, hf⟩ := Py.bind_ok.1 hf
  cases s with
  | none => cases hf
  | some s =>
    cases hf
    obtain ⟨v, hv, hle⟩ := (passes_sane hfuel (armijo_passes hs).1 (start_sane _ _ _)).flag hc
    dsimp only at hv hle
    cases hF : residual E gs ⟨nO, effective E.quad nQ, p.length, n⟩ s.x with
    | error e => rw [hF] at hv; cases hv
    | ok w =>
      rw [hF] at hv
      cases hv
      rw [normF_some] at hle
      have hle : norm w ≤ o.tol := by simpa [Flt.le] using hle
      exact satisfied_of_residual hI hC hser hG hn hgs ho hF (fun a ha => (hN w a ha).trans hle) rfl rfl rfl rfl rfl

theorem isclose0_iff {e tol : K} (ht : 0 ≤ tol) : isclose0 e tol = true ↔ |e| ≤ tol := by
  rw [isclose0, decide_eq_true_eq]
  constructor
  · intro h
    rcases le_max_iff.1 h with h | h
    · have h0 := abs_nonneg e
      have : |e| ≤ 0 := by
        by_contra hlt
        push Not at hlt
        have : 1 / 10 ^ 9 * |e| < 1 * |e| := mul_lt_mul_of_pos_right (by norm_num) hlt
        linarith
      linarith
    · exact h
  · intro h
    exact le_max_of_le_right h

/-- **C42** The unconstrained minimisers: `converged` bounds the *square* of the residual, so that the boundary conditions and the
continuity hold up to the square root of the tolerance only. -/
theorem C42_minimize_partial {E : Env K} (hI : IvpSound E.ivp) (hC : Complete E.ivp) (hser : E.parallel = false) {S : Scipy K}
    (hS : ∀ a c F x out, S.minimize a c F x = .ok out → c out.1.x = .ok out.2)
    {norm : List K → K} (hN : NormSound norm) {newton : List K → List K → Py (List K)} {o : Opts K} (ht : 0 ≤ o.tol) {alg : String}
    (halg : alg ∈ squared) {fuel n : Nat} {nO nQ : Nat} {sol : Curve K}
    (hG : Guess nO nQ sol) {p pn : List K} {r : Result K}
    (h : solve E S norm newton o alg fuel n sol p pn = .ok (some r)) (hc : r.converged = true)
    {root : K} (hr0 : 0 ≤ root) (hroot : root ^ 2 = o.tol) : Satisfied E sol n root r := by
  obtain ⟨gs, x0, f, out, m, hgs, hx, hf, ho, hm, rfl⟩ := solve_ok hG h
  have hn := arcs_pos hgs hx
  have h1 : ∀ a ∈ squared, a ∈ minimizeAlgorithms ∧ a ∉ constrainedAlgorithms := by decide
  rw [findRoot, if_pos (h1 _ halg).1] at hf
  simp only [if_neg (h1 _ halg).2] at hf
  obtain ⟨opt, hopt, hf⟩ := Py.bind_ok.1 hf
  cases hf
  have hcost := hS _ _ _ _ _ hopt
  obtain ⟨w, hw, hcost⟩ := Py.bind_ok.1 hcost
  have hcost : norm w ^ 2 = opt.2 := Except.ok.inj hcost
  have hle : |opt.2| ≤ o.tol := by
    rw [← isclose0_iff ht]
    have : (opt.1.success && isclose0 opt.2 o.tol) = true := hc
    rw [Bool.and_eq_true] at this
    exact this.2
  rw [← hcost, ← hroot, abs_of_nonneg (sq_nonneg _)] at hle
  have hle : norm w ≤ root := (le_abs_self _).trans (abs_le_of_sq_le_sq hle hr0)
  exact satisfied_of_residual hI hC hser hG hn hgs ho hw (fun a ha => (hN w a ha).trans hle) rfl rfl rfl rfl rfl

/-- **C42** The constrained minimisers: the cost is zero, `converged` is SciPy's `success`, and the residual is as small as SciPy
promises (`acc`), whatever the tolerance is. -/
theorem C42_constrained_partial {E : Env K} (hI : IvpSound E.ivp) (hC : Complete E.ivp) (hser : E.parallel = false) {S : Scipy K}
    {acc : K} (hS : ∀ a c F x out, S.minimize a c F x = .ok out → out.1.success = true →
      ∃ v, F out.1.x = .ok v ∧ ∀ b ∈ v, |b| ≤ acc)
    {norm : List K → K} {newton : List K → List K → Py (List K)} {o : Opts K} {alg : String}
    (halg : alg ∈ constrained) {fuel n : Nat} {nO nQ : Nat} {sol : Curve K}
    (hG : Guess nO nQ sol) {p pn : List K} {r : Result K}
    (h : solve E S norm newton o alg fuel n sol p pn = .ok (some r)) (hc : r.converged = true) : Satisfied E sol n acc r := by
  obtain ⟨gs, x0, f, out, m, hgs, hx, hf, ho, hm, rfl⟩ := solve_ok hG h
  have hn := arcs_pos hgs hx
  have hmin : alg ∈ minimizeAlgorithms := by
    have : ∀ a ∈ constrained, a ∈ minimizeAlgorithms := by decide
    exact this _ halg
  rw [findRoot, if_pos hmin] at hf
  obtain ⟨opt, hopt, hf⟩ := Py.bind_ok.1 hf
  cases hf
  have hsucc : opt.1.success = true := by
    have : (opt.1.success && isclose0 opt.2 o.tol) = true := hc
    rw [Bool.and_eq_true] at this
    exact this.1
  obtain ⟨w, hw, hle⟩ := hS _ _ _ _ _ hopt hsucc
  exact satisfied_of_residual hI hC hser hG hn hgs ho hw hle rfl rfl rfl rfl rfl

/-- **C42, violated for `fsolve`** The flag is computed at the guess: it says nothing about what `fsolve` found.  Whatever two
versions of `fsolve` return, the flags agree. -/
theorem C42_fsolve_violated {E : Env K} {S S' : Scipy K} {norm : List K → K} {newton : List K → List K → Py (List K)} {o : Opts K}
    {alg : String} (halg : alg.toLower = "fsolve") {fuel n : Nat} {nO nQ : Nat} {sol : Curve K} (hG : Guess nO nQ sol)
    {p pn : List K} {r r' : Result K} (h : solve E S norm newton o alg fuel n sol p pn = .ok (some r))
    (h' : solve E S' norm newton o alg fuel n sol p pn = .ok (some r')) : r.converged = r'.converged := by
  obtain ⟨gs, x0, f, out, m, hgs, hx, hf, ho, hm, rfl⟩ := solve_ok hG h
  obtain ⟨gs', x0', f', out', m', hgs', hx', hf', ho', hm', rfl⟩ := solve_ok hG h'
  cases hgs.symm.trans hgs'
  cases hx.symm.trans hx'
  obtain ⟨h1, h2⟩ := fsolve_alg halg
  rw [findRoot, if_neg h1, if_neg h2, if_pos halg] at hf hf'
  obtain ⟨x, -, hf⟩ := Py.bind_ok.1 hf
  obtain ⟨v, hv, hf⟩ := Py.bind_ok.1 hf
  obtain ⟨x', -, hf'⟩ := Py.bind_ok.1 hf'
  obtain ⟨v', hv', hf'⟩ := Py.bind_ok.1 hf'
  cases hv.symm.trans hv'
  cases hf
  cases hf'
  rfl

/-- **C42** SciPy's `root`: with more or less than one residual no result is ever returned, because the error is an array whose
truth value is asked for. -/
theorem C42_root_raises {E : Env K} {S : Scipy K} (hS : ∀ a F x out, S.root a F x = .ok out → out.2.length ≠ 1)
    {norm : List K → K} {newton : List K → List K → Py (List K)} {o : Opts K}
    {alg : String} (halg : alg ∈ rootFinders) {fuel n : Nat} {nO nQ : Nat} {sol : Curve K} (hG : Guess nO nQ sol)
    {p pn : List K} (r : Result K) : solve E S norm newton o alg fuel n sol p pn ≠ .ok (some r) := by
  intro h
  obtain ⟨gs, x0, f, out, m, hgs, hx, hf, ho, hm, rfl⟩ := solve_ok hG h
  have h1 : alg ∉ minimizeAlgorithms := by
    have : ∀ a ∈ rootFinders, a ∉ minimizeAlgorithms := by decide
    exact this _ halg
  have h2 : alg ∈ rootAlgorithms := by
    have : ∀ a ∈ rootFinders, a ∈ rootAlgorithms := by decide
    exact this _ halg
  rw [findRoot, if_neg h1, if_pos h2] at hf
  obtain ⟨opt, hopt, hf⟩ := Py.bind_ok.1 hf
  cases hf
  have hl := hS _ _ _ _ hopt
  rw [message] at hm
  obtain ⟨b, hb, -⟩ := Py.bind_ok.1 hm
  dsimp only at hb
  obtain ⟨o1, e⟩ := opt
  dsimp only at hl hb
  match e, hl, hb with
  | [], _, hb => cases hb
  | [a], hl, _ => exact hl rfl
  | _ :: _ :: _, _, hb => cases hb

/-- **C43** The Armijo iteration ends because the residual of the result is within the tolerance, because the iterations are used up, or
because the residual exceeds `max_error`, and the message names the reason.  If the residual is exactly the tolerance, the result is
converged but the message says something else. -/
theorem C43_message {E : Env K} (hI : IvpSound E.ivp) (hC : Complete E.ivp) (hser : E.parallel = false) {S : Scipy K}
    {norm : List K → K} {newton : List K → List K → Py (List K)} {o : Opts K} (hmax : 0 ≤ o.maxErr)
    {alg : String} (halg : alg.toLower = "armijo") {fuel n : Nat} (hfuel : 5 ≤ fuel) {nO nQ : Nat} {sol : Curve K}
    (hG : Guess nO nQ sol) {p pn : List K} {r : Result K}
    (h : solve E S norm newton o alg fuel n sol p pn = .ok (some r)) :
    ∃ e, Leaves E sol n norm r e ∧ (r.converged = true ↔ e ≤ o.tol) ∧ (e ≤ o.tol ∨ (o.maxIter : Int) < r.nIter ∨ o.maxErr ≤ e) ∧
      (e < o.tol → r.message = .convergedIn r.nIter) ∧
      (o.tol ≤ e → (o.maxIter : Int) < r.nIter → r.message = .maxIterations) ∧
      (o.tol ≤ e → r.nIter ≤ o.maxIter → o.maxErr < e → r.message = .maxError) ∧
      (o.tol ≤ e → r.nIter ≤ o.maxIter → e ≤ o.maxErr → r.message = .unspecified) := by
  obtain ⟨gs, x0, f, out, m, hgs, hx, hf, ho, hm, rfl⟩ := solve_ok hG h
  have hn := arcs_pos hgs hx
  obtain ⟨h1, h2⟩ := armijo_alg halg
  rw [findRoot, if_neg h1, if_neg h2, if_neg (by rw [halg]; decide), if_pos halg] at hf
  obtain ⟨s, hs, hf⟩ := Py.bind_ok.1 hf
  cases s with
  | none => cases hf
  | some s =>
    cases hf
    obtain ⟨hpass, hstop⟩ := armijo_passes hs
    have hsane := passes_sane hfuel hpass (start_sane _ _ _)
    have hpos : 0 < s.nIter := by
      cases hpass with
      | refl _ =>
        have : (-1 : K) < o.maxErr := by linarith
        simp [goOn, Flt.lt, this] at hstop
      | step hc hone hmore =>
        obtain ⟨s1, k, e, hi, -⟩ := pass_spec hfuel hone
        cases e
        have : ∀ {A : Armijo K} {a b : St K}, Passes A o fuel a b → a.nIter ≤ b.nIter := by
          intro A a b hab
          induction hab with
          | refl _ => exact le_rfl
          | step _ h1 _ ih =>
            obtain ⟨s1, k, e, hi, -⟩ := pass_spec hfuel h1
            cases e
            omega
        have := this hmore
        omega
    obtain ⟨hcv, v, hv, herr⟩ := hsane.last hpos
    dsimp only at hv herr
    cases hF : residual E gs ⟨nO, effective E.quad nQ, p.length, n⟩ s.x with
    | error e => rw [hF] at hv; cases hv
    | ok w =>
      rw [hF] at hv
      cases hv
      rw [normF_some] at herr
      obtain ⟨arcs, b, g1, -, g2, rfl⟩ := left_of_residual hI hC hser hG hn hgs ho hF (r := ⟨stitch (out.1.map fun a => a.t),
        stitch (out.1.map fun a => rows a.y), stitch (out.1.map fun a => rows a.q), out.2.1, out.2.2, s.converged, m, s.nIter⟩)
        rfl rfl rfl rfl rfl
      refine ⟨_, ⟨arcs, b, g1, g2, rfl⟩, ?_, ?_, ?_, ?_, ?_, ?_⟩
      · dsimp only
        rw [hcv, herr]
        simp [Flt.le]
      · simp only [goOn, Bool.and_eq_false_iff, Bool.not_eq_false', decide_eq_false_iff_not, not_le, hcv, herr, Flt.le, Flt.lt,
          decide_eq_true_eq, not_lt] at hstop
        rcases hstop with (h | h) | h
        · exact Or.inl h
        · exact Or.inr (Or.inl (by dsimp only; exact_mod_cast h))
        · exact Or.inr (Or.inr h)
      all_goals
        have hi : ((s.nIter : Nat) : Int) ≠ -1 := by omega
        simp only [message, errLt, errGt, hcv, herr, Flt.lt, Flt.gt, Flt.le, Py.ok_bind] at hm
        dsimp only
      · intro he
        rw [if_pos (by simp [he, he.le]), if_neg hi] at hm
        exact (Except.ok.inj hm).symm
      · intro he hit
        rw [if_neg (by simp [he]), if_pos hit] at hm
        exact (Except.ok.inj hm).symm
      · intro he hit hmx
        rw [if_neg (by simp [he]), if_neg (by omega), if_pos (by simp [hmx])] at hm
        exact (Except.ok.inj hm).symm
      · intro he hit hmx
        rw [if_neg (by simp [he]), if_neg (by omega), if_neg (by simp [hmx])] at hm
        exact (Except.ok.inj hm).symm

/-- **C42** An algorithm that is none of the known ones raises `NotImplementedError`. -/
theorem C42_unknown {S : Scipy K} {norm : List K → K} {newton : List K → List K → Py (List K)} {o : Opts K}
    {alg : String} (h : alg ∉ squared ++ constrained ++ rootFinders) (h3 : alg.toLower ≠ "fsolve")
    (h4 : alg.toLower ≠ "armijo") (fuel : Nat) (F : List K → Py (List K)) (x0 : List K) :
    findRoot S norm newton o alg fuel F x0 = .error .notImplementedError := by
  have e1 : ∀ a ∈ minimizeAlgorithms, a ∈ squared ++ constrained ++ rootFinders := by decide
  have e2 : ∀ a ∈ rootAlgorithms, a ∈ squared ++ constrained ++ rootFinders := by decide
  have h1 : alg ∉ minimizeAlgorithms := fun hm => h (e1 _ hm)
  have h2 : alg ∉ rootAlgorithms := fun hm => h (e2 _ hm)
  rw [findRoot, if_neg h1, if_neg h2, if_neg h3, if_neg h4]

/-! ### Witnesses -/

/-- One step of Euler's method to the time that is `part` of the span further. -/
def euler (part : Rat) : Ivp Rat := fun rhs ts y0 => do
  let f ← rhs y0
  let a := ts.getD 0 0
  let b := a + (lastT ts - a) * part
  .ok ([a, b], [y0, (List.range y0.length).map fun j => y0.getD j 0 + (b - a) * f.getD j 0])

theorem euler_ok {part : Rat} {rhs : List Rat → Py (List Rat)} {ts y0 : List Rat} {out : List Rat × List (List Rat)}
    (h : euler part rhs ts y0 = .ok out) : ∃ f, rhs y0 = .ok f ∧
      out = ([ts.getD 0 0, ts.getD 0 0 + (lastT ts - ts.getD 0 0) * part], [y0, (List.range y0.length).map fun j =>
        y0.getD j 0 + (ts.getD 0 0 + (lastT ts - ts.getD 0 0) * part - ts.getD 0 0) * f.getD j 0]) := by
  rw [euler] at h
  obtain ⟨f, hf, h⟩ := Py.bind_ok.1 h
  exact ⟨f, hf, (Except.ok.inj h).symm⟩

theorem euler_sound {part : Rat} (hp : 0 < part) : IvpSound (euler part) where
  raises := by intro rhs ts y0 e h; rw [euler, h]; rfl
  sorted := by
    intro rhs ts y0 a b h hlt
    obtain ⟨f, hf, e⟩ := euler_ok h
    cases e
    have : 0 < (lastT ts - ts.getD 0 0) * part := mul_pos (by linarith) hp
    simpa using this
  length := by intro rhs ts y0 a b h; obtain ⟨f, hf, e⟩ := euler_ok h; cases e; rfl
  pos := by intro rhs ts y0 a b h; obtain ⟨f, hf, e⟩ := euler_ok h; cases e; simp
  first := by intro rhs ts y0 a b h; obtain ⟨f, hf, e⟩ := euler_ok h; cases e; rfl
  state := by intro rhs ts y0 a b h; obtain ⟨f, hf, e⟩ := euler_ok h; cases e; rfl
  width := by
    intro rhs ts y0 a b h r hr
    obtain ⟨f, hf, e⟩ := euler_ok h
    cases e
    simp only [List.mem_cons, List.not_mem_nil, or_false] at hr
    rcases hr with rfl | rfl <;> simp

theorem euler_complete : Complete (euler 1) := by
  intro rhs ts y0 a b h
  obtain ⟨f, hf, e⟩ := euler_ok h
  cases e
  simp [lastT]

theorem maxNorm_sound : NormSound maxNorm := by
  intro v
  induction v with
  | nil => intro a h; simp at h
  | cons x v ih =>
    intro a h
    rw [maxNorm, List.map_cons, List.foldr_cons]
    rcases List.mem_cons.1 h with rfl | h
    · exact le_max_left _ _
    · exact (ih a h).trans (le_max_right _ _)

/-- The Euclidean norm, which the program uses, satisfies the hypothesis of the theorems. -/
theorem euclid_sound : NormSound fun v : List ℝ => Real.sqrt (v.map (· ^ 2)).sum := by
  intro v a ha
  refine Real.abs_le_sqrt ?_
  exact List.single_le_sum (fun x hx => by obtain ⟨y, -, rfl⟩ := List.mem_map.1 hx; positivity) _ (List.mem_map.2 ⟨a, ha, rfl⟩)

/-- The state `x' = p`, the quadrature of `x`, and the boundary conditions given. -/
def exEnv (ivp : Ivp Rat) (bc : Fn Rat) (quad : Option (Fn Rat)) : Env Rat :=
  ⟨ivp, Traj.exRule, fun a => match a with | [_, p, _] => .ok p | _ => .error .typeError, quad, bc, [5], false⟩

/-- A minimiser that returns zero. -/
def exScipy : Scipy Rat where
  minimize := fun _ cost _ _ => do
    let c ← cost [0]
    .ok (⟨[0], true, 1⟩, c)
  root := fun _ F x => do .ok (⟨x, true, 1⟩, ← F x)
  fsolve := fun _ x => .ok (x.map (· + 1))

/-- A guess without quadratures. -/
def exGuess : Curve Rat := ⟨[0, 2], .mat 1 [[3], [3]], .vec [], .vec []⟩

theorem exGuess_ok : Guess 1 0 exGuess where
  times := by decide +kernel
  two := by decide
  y := ⟨_, rfl, rfl, by decide +kernel⟩
  q := .inl ⟨rfl, rfl⟩
  u := .inl rfl

/-- A boundary condition that has no solution: `x(0)² + 9/1000 = 0`. -/
def exBc : Fn Rat := fun a => .ok [(a.getD 0 []).getD 0 0 ^ 2 + 9 / 1000]

/-- What is returned. -/
def exResult : Result Rat := ⟨[0, 2], [[0], [0]], [], [], [], true, .convergedIn 1, 1⟩

/-- **C42, violated for the unconstrained minimisers** With the tolerance 1/10000 the solver reports convergence for boundary
conditions that have no solution and of which the returned trajectory leaves 9/1000: the flag compares the square. -/
theorem C42_violated : ∃ (E : Env Rat) (S : Scipy Rat) (sol : Curve Rat) (o : Opts Rat) (r : Result Rat),
    IvpSound E.ivp ∧ Complete E.ivp ∧ E.parallel = false ∧ Guess 1 0 sol ∧
      (∀ a c F x out, S.minimize a c F x = .ok out → c out.1.x = .ok out.2) ∧
      solve E S maxNorm (fun _ _ => .ok []) o "BFGS" 5 1 sol [] [] = .ok (some r) ∧ r.converged = true ∧
      ¬Satisfied E sol 1 o.tol r := by
  refine ⟨exEnv (euler 1) exBc none, exScipy, exGuess, ⟨1 / 10000, 100, 10⟩, exResult, euler_sound (by norm_num), euler_complete,
    rfl, exGuess_ok, ?_, by decide +kernel, rfl, ?_⟩
  · intro a c F x out h
    obtain ⟨v, hv, h⟩ := Py.bind_ok.1 h
    cases h
    exact hv
  · intro h
    obtain ⟨b, hb, hle⟩ := h.bcs
    have e : b = [9 / 1000] := by
      have : (exEnv (euler 1) exBc none).bc (ends exResult [5]) = .ok [9 / 1000] := by decide +kernel
      exact Except.ok.inj (hb.symm.trans this)
    have := hle (9 / 1000) (by rw [e]; simp)
    rw [abs_of_nonneg (by norm_num)] at this
    norm_num at this

/-- **C42, C44: a failed integration is not noticed** If `solve_ivp` gives up on the way (it says so in `status`, which is not looked
at), the Armijo iteration may report convergence for a trajectory that ends too early. -/
theorem C42_truncated : ∃ (E : Env Rat) (sol : Curve Rat) (o : Opts Rat) (r : Result Rat),
    IvpSound E.ivp ∧ E.parallel = false ∧ Guess 1 0 sol ∧
      solve E exScipy maxNorm (fun _ v => .ok [- v.getD 0 0]) o "Armijo" 5 1 sol [] [] = .ok (some r) ∧ r.converged = true ∧
      lastT r.t < lastT sol.t := by
  refine ⟨exEnv (euler (1 / 2)) (fun a => .ok [(a.getD 1 []).getD 0 0 - 7]) none, exGuess, ⟨1 / 10000, 100, 10⟩,
    ⟨[0, 1], [[7], [7]], [], [], [], true, .convergedIn 1, 1⟩, euler_sound (by norm_num), rfl, exGuess_ok, by decide +kernel, rfl,
    by decide +kernel⟩

/-- Two arcs with a quadrature and a parameter: `x' = p`, `x(0) = 1`, `x(2) = 5`, the quadrature starts at zero.  The given
direction solves the linear equations. -/
def exFull : Py (Option (Result Rat)) :=
  solve (exEnv (euler 1) (fun a => .ok [(a.getD 0 []).getD 0 0 - 1, (a.getD 2 []).getD 0 0 - 5, (a.getD 1 []).getD 0 0])
      (some fun a => .ok [(a.getD 0 []).getD 0 0])) exScipy maxNorm
    (fun x _ => .ok (List.zipWith (· - ·) [1, 3, 0, 2] x)) ⟨1 / 10000, 100, 10⟩ "Armijo" 5 2
    ⟨[0, 1, 2], .mat 1 [[0], [1], [2]], .mat 1 [[0], [1], [2]], .vec [4, 4, 4]⟩ [3] []

example : exFull = .ok (some ⟨[0, 1, 2], [[1], [3], [5]], [[0], [2], [6]], [2], [], true, .convergedIn 1, 1⟩) := by decide +kernel

/-- A residual of one whatever the unknowns are: the iterations are used up, or the error is too large. -/
def exStuck (maxErr : Rat) : Py (Option (Bool × Message × Int)) :=
  (solve (exEnv (euler 1) (fun _ => .ok [1]) none) exScipy maxNorm (fun _ _ => .ok [1]) ⟨1 / 10000, maxErr, 2⟩ "Armijo" 5 1 exGuess [] []).map
    (Option.map fun r => (r.converged, r.message, r.nIter))

example : exStuck 100 = .ok (some (false, .maxIterations, 3)) ∧ exStuck (1 / 2) = .ok (some (false, .maxError, 1)) := by decide +kernel

/-- With `fsolve` the flag belongs to the guess: here the guess is perfect and the answer is not. -/
def exFsolve : Py (Option (Result Rat)) :=
  solve (exEnv (euler 1) (fun a => .ok [(a.getD 0 []).getD 0 0 - 3]) none) exScipy maxNorm (fun _ _ => .ok [])
    ⟨1 / 10000, 100, 10⟩ "fsolve" 5 1 exGuess [] []

example : exFsolve = .ok (some ⟨[0, 2], [[4], [4]], [], [], [], true, .unknownNumber, -1⟩) := by decide +kernel

/-! ### The arcs of the result -/

/-- **C44** In the propagated arcs the quadratures start with the value of the unknowns and are continuous across junctions; the
states of every arc start with the unknowns. -/
theorem C44_quads {E : Env K} (hI : IvpSound E.ivp) (hser : E.parallel = false) {nO nQ n nP : Nat} {sol : Curve K}
    (hG : Guess nO nQ sol) (hn : 0 < n) {gs : List (Curve K)} (hgs : makeArcs sol n = .ok gs) {xx p pn : List K}
    {out : List (Curve K)} (h : shoot E gs ⟨nO, effective E.quad nQ, nP, n⟩ xx = .ok (out, p, pn)) :
    ∃ ys q, unwrap xx nO (effective E.quad nQ) nP n = .ok (ys, q, p, pn) ∧ out.length = n ∧
      (∀ i < n, ∃ g, out[i]? = some g ∧ row g.y 0 = ys.getD i []) ∧
      (0 < effective E.quad nQ → (∃ g, out[0]? = some g ∧ row g.q 0 = q) ∧
        ∀ i g h, out[i]? = some g → out[i + 1]? = some h → row h.q 0 = final g.q) := by
  obtain ⟨h1, h2, ys, q, h3, h4, h5⟩ := shoot_spec hI hser hG hn (makeArcs_arcs hG hn hgs) h
  exact ⟨ys, q, h3, h1.length, h4, fun h0 => ⟨h5 h0, fun i g h e1 e2 => by rw [h2 h0 i g h e1 e2, lastRow_final]⟩⟩

/-- **C44** The returned trajectory runs from the first to the last time of the guess, its times increase, it contains every
junction exactly once, and it has a row of states (and of quadratures) for every time. -/
theorem C44_result {E : Env K} (hI : IvpSound E.ivp) (hC : Complete E.ivp) (hser : E.parallel = false) {S : Scipy K}
    {norm : List K → K} {newton : List K → List K → Py (List K)} {o : Opts K} {alg : String}
    {fuel n : Nat} {nO nQ : Nat} {sol : Curve K} (hG : Guess nO nQ sol)
    {p pn : List K} {r : Result K} (h : solve E S norm newton o alg fuel n sol p pn = .ok (some r)) :
    r.t.Pairwise (· < ·) ∧ r.t.getD 0 0 = sol.t.getD 0 0 ∧ lastT r.t = lastT sol.t ∧
      (∀ i ≤ n, r.t.count (junction sol n i) = 1) ∧ r.y.length = r.t.length ∧
      (0 < effective E.quad nQ → r.q.length = r.t.length) := by
  obtain ⟨gs, x0, f, ⟨arcs, p', pn'⟩, m, hgs, hx, hf, ho, hm, rfl⟩ := solve_ok hG h
  have hn := arcs_pos hgs hx
  obtain ⟨h1, -, -⟩ := shoot_spec hI hser hG hn (makeArcs_arcs hG hn hgs) ho
  have hfl := h1.flight hI hC hG hn
  dsimp only
  have hlen := hfl.length
  obtain ⟨a, rest, rfl⟩ := List.exists_cons_of_length_pos (l := arcs) (by omega)
  have hall : ∀ i (hi : i < (a :: rest).length),
      Flown (junction sol n i) (junction sol n (i + 1)) nO (effective E.quad nQ) (a :: rest)[i] := by
    intro i hi
    obtain ⟨g, hg, fg⟩ := hfl.arc i (by omega)
    rw [List.getElem?_eq_getElem hi] at hg
    cases hg
    exact fg
  have hmem : ∀ b ∈ a :: rest, ∃ i, Flown (junction sol n i) (junction sol n (i + 1)) nO (effective E.quad nQ) b := by
    intro b hb
    obtain ⟨i, hi, rfl⟩ := List.getElem_of_mem hb
    exact ⟨i, hall i hi⟩
  have hj : Joined ((a :: rest).map fun b => b.t) := by
    rw [Joined, List.isChain_iff_getElem]
    intro i hi
    simp only [List.getElem_map]
    rw [(hall i (by simp at hi ⊢; omega)).last, (hall (i + 1) (by simpa using hi)).first]
  obtain ⟨s1, s2, s3, s4, s5⟩ := stitch_times (rest.map fun b : Curve K => b.t) a.t
    (by
      intro t ht
      rw [← List.map_cons (f := fun b : Curve K => b.t)] at ht
      obtain ⟨b, hb, rfl⟩ := List.mem_map.1 ht
      obtain ⟨i, fb⟩ := hmem b hb
      have := fb.two
      omega)
    (by
      intro t ht
      rw [← List.map_cons (f := fun b : Curve K => b.t)] at ht
      obtain ⟨b, hb, rfl⟩ := List.mem_map.1 ht
      obtain ⟨i, fb⟩ := hmem b hb
      exact fb.times) (by rw [← List.map_cons (f := fun b : Curve K => b.t)]; exact hj)
  have hlast : ((a.t :: rest.map fun b => b.t).getD (rest.map fun b => b.t).length []) = ((a :: rest)[n - 1]'(by omega)).t := by
    rw [← List.map_cons (f := fun b : Curve K => b.t), List.length_map, getD_eq (by simp), List.getElem_map]
    congr 2
    simp at hlen
    omega
  have flast := hall (n - 1) (by omega)
  rw [show n - 1 + 1 = n by omega] at flast
  have h0 := hall 0 (by omega)
  have hst : ∀ (f : Curve K → List (List K)), (∀ b ∈ a :: rest, (f b).length = b.t.length) →
      (stitch ((a :: rest).map f)).length = (stitch ((a :: rest).map fun b => b.t)).length := by
    intro f hf
    have e1 := stitch_length (l := f a) (ls := rest.map f) (by
      intro m hm
      obtain ⟨b, hb, rfl⟩ := List.mem_map.1 hm
      obtain ⟨i, fb⟩ := hmem b (List.mem_cons_of_mem _ hb)
      rw [hf b (List.mem_cons_of_mem _ hb)]
      have := fb.two
      omega)
    have e2 := stitch_length (l := a.t) (ls := rest.map fun b => b.t) (by
      intro m hm
      obtain ⟨b, hb, rfl⟩ := List.mem_map.1 hm
      obtain ⟨i, fb⟩ := hmem b (List.mem_cons_of_mem _ hb)
      have := fb.two
      omega)
    have e3 : ((f a :: rest.map f).map List.length) = ((a.t :: rest.map fun b => b.t).map List.length) := by
      rw [← List.map_cons, ← List.map_cons (f := fun b : Curve K => b.t), List.map_map, List.map_map]
      exact List.map_congr_left fun b hb => hf b hb
    rw [e3, ← e2] at e1
    simp only [List.length_map] at e1
    rw [List.map_cons, List.map_cons]
    omega
  refine ⟨s1, ?_, ?_, fun i hi => ?_, ?_, fun hq => ?_⟩
  · rw [List.map_cons, s4, ← junction_zero sol n]
    exact h0.first
  · rw [List.map_cons, s5, hlast, flast.last, junction_last sol hn]
  · rw [List.map_cons]
    refine List.count_eq_one_of_mem (s1.imp fun h => ne_of_lt h) ?_
    rw [s2]
    rcases Nat.lt_or_ge i n with hi' | hi'
    · have fi := hall i (by omega)
      have h2 := fi.two
      refine ⟨((a :: rest)[i]'(by omega)).t, ?_, ?_⟩
      · rw [← List.map_cons (f := fun b : Curve K => b.t)]
        exact List.mem_map.2 ⟨_, List.getElem_mem _, rfl⟩
      · rw [← fi.first, getD_eq (by omega)]
        exact List.getElem_mem _
    · obtain rfl : i = n := by omega
      have h2 := flast.two
      refine ⟨((a :: rest)[i - 1]'(by omega)).t, ?_, ?_⟩
      · rw [← List.map_cons (f := fun b : Curve K => b.t)]
        exact List.mem_map.2 ⟨_, List.getElem_mem _, rfl⟩
      · rw [← flast.last, lastT, getD_eq (by omega)]
        exact List.getElem_mem _
  · refine hst (fun b => rows b.y) fun b hb => ?_
    obtain ⟨i, fb⟩ := hmem b hb
    exact fb.ylen
  · refine hst (fun b => rows b.q) fun b hb => ?_
    obtain ⟨i, fb⟩ := hmem b hb
    have := fb.q
    rw [if_neg (by omega)] at this
    exact this.2.1

/-! ### Parallel runs -/

/-- **C45, violated** Compiled derivative functions take three arguments.  With a pool they are called with four, so that no solve
with several CPUs returns a result, whatever the algorithm. -/
theorem C45_violated {E : Env K} (hI : IvpSound E.ivp) (hcomp : ∀ args, args.length ≠ 3 → E.eom args = .error .typeError)
    (hpar : E.parallel = true) {S : Scipy K}
    {norm : List K → K} {newton : List K → List K → Py (List K)} {o : Opts K} {alg : String}
    {fuel n : Nat} {nO nQ : Nat} {sol : Curve K} (hG : Guess nO nQ sol) {p pn : List K} (r : Result K) :
    solve E S norm newton o alg fuel n sol p pn ≠ .ok (some r) := by
  intro h
  obtain ⟨gs, x0, f, out, m, hgs, hx, hf, ho, hm, rfl⟩ := solve_ok hG h
  have hn := arcs_pos hgs hx
  rw [shoot] at ho
  obtain ⟨w, hw, ho⟩ := Py.bind_ok.1 ho
  dsimp only at ho
  by_cases hq : w.2.1.length < effective E.quad nQ
  · rw [if_pos hq] at ho; cases ho
  rw [if_neg hq] at ho
  obtain ⟨g, hg, ho⟩ := Py.bind_ok.1 ho
  rw [makeGammas] at hg
  obtain ⟨starts, hs, hg⟩ := Py.bind_ok.1 hg
  obtain ⟨new, hnew, hg⟩ := Py.bind_ok.1 hg
  have h1 := mapM_ok_forall₂ hnew
  have h2 := (mapM_ok_forall₂ hs).length_eq
  obtain ⟨hl, hwid⟩ := unwrap_ok hw
  have h3 : 0 < ((setStarts gs w.1 w.2.1 (effective E.quad nQ)).zip starts).length := by
    rw [List.length_zip, ← h2, min_self, setStarts, List.length_zipWith, hl, (makeArcs_arcs hG hn hgs).length, min_self]
    exact hn
  have h4 := List.Forall₂.get h1 (i := 0) h3 (by rw [← h1.length_eq]; exact h3)
  rw [propagate] at h4
  obtain ⟨a, ha, -⟩ := Py.bind_ok.1 h4
  rw [hI.raises (e := .typeError)] at ha
  · cases ha
  · exact hcomp _ (by simp [extraArgs, hpar])

/-- **C45** If derivative and quadrature function accept the control as an additional argument and ignore it, the arcs are those
of a serial run.  (Missing: the compiled functions do not, see `C45_violated`.) -/
theorem C45_ignored_partial {E E' : Env K} (hser : E.parallel = false) (hpar : E'.parallel = true)
    (hsame : E'.ivp = E.ivp ∧ E'.simp = E.simp ∧ E'.const = E.const)
    (heom : ∀ y u p, E'.eom [y, u, p, E.const] = E.eom [y, p, E.const])
    (hquad : (E'.quad = none ∧ E.quad = none) ∨ ∃ f f', E'.quad = some f' ∧ E.quad = some f ∧
      ∀ y u p, f' [y, u, p, E.const] = f [y, p, E.const]) (gs : List (Curve K)) (p : List K) (nq : Nat) :
    makeGammas E' gs p nq = makeGammas E gs p nq := by
  obtain ⟨h1, h2, h3⟩ := hsame
  have key : ∀ g : Curve K × List K × List K × List K,
      propagate E'.ivp E'.simp E'.eom E'.quad g.1.t g.2.1 g.2.2.1 (extraArgs E' g.2.2.2 p) =
      propagate E.ivp E.simp E.eom E.quad g.1.t g.2.1 g.2.2.1 (extraArgs E g.2.2.2 p) := by
    intro g
    have e1 : extraArgs E' g.2.2.2 p = [g.2.2.2, p, E.const] := by simp [extraArgs, hpar, h3]
    have e2 : extraArgs E g.2.2.2 p = [p, E.const] := by simp [extraArgs, hser]
    rw [propagate, propagate, e1, e2, h1, h2]
    have e3 : (fun y => E'.eom (y :: [g.2.2.2, p, E.const])) = fun y => E.eom (y :: [p, E.const]) := by
      funext y
      exact heom y _ _
    rw [e3]
    rcases hquad with ⟨q1, q2⟩ | ⟨f, f', q1, q2, hq⟩
    · rw [q1, q2]
    · rw [q1, q2]
      have e4 : (fun y => f' (y :: [g.2.2.2, p, E.const])) = fun y => f (y :: [p, E.const]) := by
        funext y
        exact hq y _ _
      simp only [e4]
  rw [makeGammas, makeGammas]
  simp only [key]

end Beluga.Shoot
