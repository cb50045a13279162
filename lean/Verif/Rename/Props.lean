import Verif.Rename.Compiled
import Verif.EndToEnd.Pass

/-!
# Names do not matter (C92)

If the variables of a problem get other names, beluga makes the same boundary value problem with other names, its compiled functions
return the same numbers and a solution is mapped back to the same numbers.
-/

namespace Beluga.Rename

open Beluga.Sym Beluga.Sym.Expr Beluga.Num Beluga.Map Beluga.E2E

variable {r : Name → Name}

/-! ### Lemmas -/

section
variable {K : Type} [Field K] [LinearOrder K]

theorem invTag_ren (hr : Function.Injective r) (O : TrigOps K) (rule : List K → List K → K) (I : Interp K) (b a : Prob) (tag : MapTag)
    (s : Sol K) : invTag O rule I (renP r b) (renP r a) (renT r tag) s = invTag O rule I b a tag s := by
  cases tag with
  | epsTrig idx lo hi ind st ps cs =>
    have key : ∀ e x, lambdify I [[r ind], st.map r, ps.map r, cs.map r] (ren r e) x = lambdify I [[ind], st, ps, cs] e x := fun e x =>
      lambdify_ren hr I [[ind], st, ps, cs] e x
    simp only [renT, invTag]
    congr 1
    funext x t y
    simp only [epsFunc, key]
  | dualize c d =>
    simp only [renT, invTag, computeCost_ren hr]
  | algebraic =>
    have hl : (renP r a).controls.length = a.controls.length := by simp [renP]
    simp only [renT, invTag, mapperU_ren hr, hl]
  | identity => rfl
  | momentumShift _ => rfl
  | differential _ => rfl
  | differentialDiffyG _ => rfl
  | mf => rfl
  | squash _ _ _ _ _ _ => rfl
  | normalizeTime _ => rfl

theorem invTags_ren (hr : Function.Injective r) (O : TrigOps K) (rule : List K → List K → K) (I : Interp K) (b a : Prob) :
    ∀ (tags : List MapTag) (s : Sol K), invTags O rule I (renP r b) (renP r a) (tags.map (renT r)) s = invTags O rule I b a tags s
  | [], _ => rfl
  | tag :: tags, s => by
    rw [List.map_cons, invTags, invTags, invTags_ren hr O rule I b a tags s]
    congr 1
    funext s'
    exact invTag_ren hr O rule I b a tag s'

theorem newTags_ren (b a : Prob) : newTags (renP r b) (renP r a) = (newTags b a).map (renT r) := by
  simp [newTags, renP, List.map_drop]

theorem invSteps_ren (hr : Function.Injective r) {S S' : Sympy} (O : TrigOps K) (rule : List K → List K → K) (I : Interp K) :
    ∀ (steps : List Step) (p : Prob) (s : Sol K), StepsOk r S S' steps p →
      invSteps S' O rule I steps (renP r p) s = invSteps S O rule I steps p s
  | [], _, _, _ => rfl
  | st :: steps, p, s, h => by
    rw [invSteps, invSteps, h.1]
    cases h1 : st.run S p with
    | error e => rfl
    | ok p1 =>
      have := invSteps_ren hr O rule I steps p1 s (h.2 p1 h1)
      simp only [Except.map, bind, Except.bind]
      rw [this]
      cases invSteps S O rule I steps p1 s with
      | error e => rfl
      | ok s1 =>
        simp only
        rw [newTags_ren]
        exact invTags_ren hr O rule I p p1 _ s1

end

/-! ### C92: names do not matter -/

/-- The boundary value problem of the indirect methods is the same up to names, including the exceptions. -/
theorem C92_generated {S S' : Sympy} (hS : Alike r S S') (o : Opts) (p : Prob) (hm : Made r o.momentumShift p) :
    indirect S' o (renP r p) = (indirect S o p).map (renP r) := by
  rw [indirect, indirect, preprocess_ren hm.names.inj]
  refine bind_map_ren _ _ _ fun q hq => ?_
  rw [indirectSteps_ren]
  cases hs : indirectSteps o q with
  | error e => rfl
  | ok steps => exact runSteps_ren steps q (indirect_ok hS o q (hm.of_shape (shape_preprocess hq)) hs)

/-- The same for the direct method, which does not solve equations with sympy. -/
theorem C92_generated_direct (S S' : Sympy) (o : Direct.DirectOpts) (p : Prob) (hm : Made r o.momentumShift p) :
    Direct.direct S' o (renP r p) = (Direct.direct S o p).map (renP r) := by
  rw [Direct.direct, Direct.direct, preprocess_ren hm.names.inj]
  refine bind_map_ren _ _ _ fun q hq => ?_
  rw [directSteps_ren]
  cases hs : directSteps o.analyticalJacobian o.momentumShift o.normalizeTime q with
  | error e => rfl
  | ok steps => exact runSteps_ren steps q (direct_ok _ _ _ q (hm.of_shape (shape_preprocess hq)) hs)

/-- The compiled functions of two problems with different names are the same functions of numbers. -/
theorem C92_compiled {K : Type} [Field K] [LinearOrder K] (hr : Function.Injective r) (I : Interp K) (p : Prob) :
    derivFunc I (renP r p) = derivFunc I p ∧ quadFunc (K := K) (renP r p) = quadFunc p ∧ bcFunc I (renP r p) = bcFunc I p ∧
      computeU I (renP r p) = computeU I p ∧ derivJac I (renP r p) = derivJac I p ∧ bcJac I (renP r p) = bcJac I p :=
  ⟨by funext y pr k; exact derivFunc_ren hr I p y pr k, quadFunc_ren hr p,
    by funext y0 q0 yf qf pr pc k; exact bcFunc_ren hr I p y0 q0 yf qf pr pc k,
    by funext y pr k; exact computeU_ren hr I p y pr k, derivJac_ren hr I p, bcJac_ren hr I p⟩

/-- A solution of the boundary value problem is mapped back to the same numbers. -/
theorem C92_back {K : Type} [Field K] [LinearOrder K] {S S' : Sympy} (hS : Alike r S S') (O : TrigOps K) (rule : List K → List K → K)
    (I : Interp K) (o : Opts) (p : Prob) (hm : Made r o.momentumShift p) (s : Sol K) :
    invIndirect S' O rule I o (renP r p) s = invIndirect S O rule I o p s := by
  rw [invIndirect, invIndirect, preprocess_ren hm.names.inj]
  cases hq : preprocess p with
  | error e => rfl
  | ok q =>
    simp only [Except.map, bind, Except.bind, indirectSteps_ren]
    cases hs : indirectSteps o q with
    | error e => rfl
    | ok steps =>
      exact invSteps_ren hm.names.inj O rule I steps q s (indirect_ok hS o q (hm.of_shape (shape_preprocess hq)) hs)

/-- The shooting solver returns the same numbers. -/
theorem C92_shooting (hr : Function.Injective r) (R : Shooter) (U : Name → Nat → ℝ → ℝ) (p : Prob) (s : Sol ℝ) :
    solvePass (.shooting R) U (renP r p) none s = solvePass (.shooting R) U p none s := by
  obtain ⟨h1, h2, h3, -⟩ := C92_compiled hr (real U) p
  have hq : (renP r p).quads.length = p.quads.length := by simp [renP]
  have e1 : eomFn U (renP r p) = eomFn U p := by funext l; simp only [eomFn, h1]
  have e2 : quadFn U (renP r p) = quadFn U p := by simp only [quadFn, h2]
  have e3 : bcFn U (renP r p) = bcFn U p := by funext l; simp only [bcFn, h3, hq]
  have e4 : shootEnv R.ivp R.simpson U (renP r p) s.const = shootEnv R.ivp R.simpson U p s.const := by
    rw [shootEnv, e1, e2, e3]; rfl
  simp only [solvePass, solveSol, shootSol, e4]

/-! ### Examples -/

/-- sympy as seen through other names. -/
def through (r g : Name → Name) (S : Sympy) : Sympy where
  solve := fun eqs syms => (S.solve (eqs.map (ren g)) (syms.map g)).map (List.map fun xe => (r xe.1, ren r xe.2))
  lu := fun M b => (S.lu (M.map (List.map (ren g))) (b.map (ren g))).map (List.map (ren r))
  integrate := fun e x => ren r (S.integrate (ren g e) (g x))

theorem ren_left {g : Name → Name} (h : Function.LeftInverse g r) : ∀ e : Expr, ren g (ren r e) = e
  | num _ => rfl
  | pi => rfl
  | sym s => by simp [ren, h s]
  | add a b => by simp [ren, ren_left h a, ren_left h b]
  | mul a b => by simp [ren, ren_left h a, ren_left h b]
  | inv a => by simp [ren, ren_left h a]
  | pow a n => by simp [ren, ren_left h a]
  | fn f a => by simp [ren, ren_left h a]

/-- There is always such a sympy. -/
theorem through_alike {g : Name → Name} (h : Function.LeftInverse g r) (S : Sympy) : Alike r S (through r g S) where
  solve := by
    intro eqs syms
    simp [through, Function.comp_def, ren_left h, h _]
  lu := by
    intro M b
    simp [through, Function.comp_def, ren_left h]
  integrate := by
    intro e x
    simp [through, ren_left h, h x]

/-- A bounded control moves a point: names `x`, `u`. -/
def exU : Prob where
  ind := "t"
  states := [⟨"x", sym "u"⟩]
  parameters := []
  controls := ["u"]
  initial := [{ expr := sym "x" }]
  path := [{ expr := sym "u", lower := some (num (-1)), upper := some (num 1), activator := some (sym "eps"), method := .epstrig }]
  terminal := [{ expr := sym "x" + num (-1) }]
  costPath := sym "u" * sym "u"
  constants := ["eps"]

/-- The same with the names `z`, `v`. -/
def exV : Prob where
  ind := "t"
  states := [⟨"z", sym "v"⟩]
  parameters := []
  controls := ["v"]
  initial := [{ expr := sym "z" }]
  path := [{ expr := sym "v", lower := some (num (-1)), upper := some (num 1), activator := some (sym "eps"), method := .epstrig }]
  terminal := [{ expr := sym "z" + num (-1) }]
  costPath := sym "v" * sym "v"
  constants := ["eps"]

/-- The names and those made of them. -/
def swapNames (n : Name) : Name :=
  if n = "x" then "z" else if n = "z" then "x" else if n = "_lam_x" then "_lam_z" else if n = "_lam_z" then "_lam_x"
  else if n = "u" then "v" else if n = "v" then "u" else if n = "_u_trig" then "_v_trig" else if n = "_v_trig" then "_u_trig"
  else if n = "_lam_u" then "_lam_v" else if n = "_lam_v" then "_lam_u"
  else if n = "_lam__u_trig" then "_lam__v_trig" else if n = "_lam__v_trig" then "_lam__u_trig" else n

theorem swap_fix (n : Name) (h : n ∉ ["x", "z", "_lam_x", "_lam_z", "u", "v", "_u_trig", "_v_trig", "_lam_u", "_lam_v", "_lam__u_trig",
    "_lam__v_trig"]) : swapNames n = n := by
  simp only [List.mem_cons, List.not_mem_nil, or_false, not_or] at h
  simp [swapNames, h]

theorem swap_swap (n : Name) : swapNames (swapNames n) = n := by
  by_cases h : n ∈ ["x", "z", "_lam_x", "_lam_z", "u", "v", "_u_trig", "_v_trig", "_lam_u", "_lam_v", "_lam__u_trig", "_lam__v_trig"]
  · simp only [List.mem_cons, List.not_mem_nil, or_false] at h
    rcases h with rfl | rfl | rfl | rfl | rfl | rfl | rfl | rfl | rfl | rfl | rfl | rfl <;> decide
  · rw [swap_fix n h, swap_fix n h]

theorem swap_made (shift : Bool) : Made swapNames shift exU := by
  have nu : ∀ (a : String) (i : Nat), a = "_nu_0_" ∨ a = "_nu_f_" → swapNames (a ++ toString i) = a ++ toString i := by
    intro a i ha
    refine swap_fix _ fun hm => ?_
    simp only [List.mem_cons, List.not_mem_nil, or_false] at hm
    rcases ha with rfl | rfl <;>
    · rcases hm with h | h | h | h | h | h | h | h | h | h | h | h <;>
      · have h := congrArg String.toList h
        simp at h
  cases shift <;>
  · refine ⟨fun _ => by decide, ⟨Function.LeftInverse.injective swap_swap, by decide, by decide, fun i => nu _ i (.inl rfl),
      fun i => nu _ i (.inr rfl), by decide, ?_, ?_⟩⟩
    · intro u hu k hk
      have hu : u = "u" := by simpa [exU] using hu
      subst hu
      rcases Nat.le_one_iff_eq_zero_or_eq_one.1 hk with rfl | rfl <;> decide
    · intro u hu k hk
      have hu : u = "u" := by simpa [exU] using hu
      subst hu
      rcases Nat.le_one_iff_eq_zero_or_eq_one.1 hk with rfl | rfl <;> decide

/-- Calling the position `z` and the control `v` gives the same boundary value problem up to names, for all options. -/
example (S : Sympy) (o : Opts) :
    indirect (through swapNames swapNames S) o exV = (indirect S o exU).map (renP swapNames) := by
  have : exV = renP swapNames exU := by decide
  rw [this]
  exact C92_generated (through_alike swap_swap S) o exU (swap_made _)

/-- Solutions of both are mapped back to the same numbers. -/
example (S : Sympy) (O : TrigOps ℝ) (rule : List ℝ → List ℝ → ℝ) (U : Name → Nat → ℝ → ℝ) (o : Opts) (s : Sol ℝ) :
    invIndirect (through swapNames swapNames S) O rule (real U) o exV s = invIndirect S O rule (real U) o exU s := by
  have : exV = renP swapNames exU := by decide
  rw [this]
  exact C92_back (through_alike swap_swap S) O rule (real U) o exU (swap_made _) s

end Beluga.Rename
