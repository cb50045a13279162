import Verif.EndToEnd.Top

/-!
# What `beluga.solve` returns with autoscaling (C77)
-/

namespace Beluga.E2E

open Beluga.Sym Beluga.Sym.Expr Beluga.Num Beluga.Map Beluga.Opt Beluga.Rep
open Beluga.Shoot (Ivp IvpSound Complete NormSound Guess lastT Scipy Result)
open Beluga.Traj (Curve Simpson)

/-! ### Specification -/

/-- The scale factors for the guess `g` are positive sizes of the declared units. -/
def WellScaled (U : Name → Nat → ℝ → ℝ) (Γ : Name → Expr) (p : Prob) (un : Units) (g : Sol ℝ) : Prop :=
  ∃ φ, Sizes U Γ φ ∧ Factored U Γ φ p un g

/-- The problem is dimensionally consistent, and the units of the generated problem `p'` are those of `Γ`. -/
structure Dimensional (U : Name → Nat → ℝ → ℝ) (Γ : Name → Expr) (S : Sympy) (o : Opts) (p p' : Prob)
    (T T' : Homog.Tab) : Prop where
  lu : Homog.LuDim U Γ S
  solve : o.controlMethod = .algebraic → Homog.SolveDim U Γ S
  stated : Homog.Consistent U Γ (Γ p.ind) p T
  switches : ∀ s ∈ p.switches, Homog.SwitchDim U Γ s
  generated : Homog.indirectU S o (p, T) = .ok (p', T')
  agrees : Homog.Agrees Γ T'
  names : (sts p' ++ p'.controls ++ p'.parameters ++ p'.constraintParams ++ p'.constants).Nodup

/-! ### Lemmas -/

variable {U : Name → Nat → ℝ → ℝ} {Γ : Name → Expr}

theorem zip_div_mul : ∀ {u f : List ℝ}, u.length = f.length → (∀ x ∈ f, 0 < x) →
    List.zipWith (· * ·) (List.zipWith (· / ·) u f) f = u
  | [], [], _, _ => rfl
  | x :: u, y :: f, h, hp => by
    have hy : y ≠ 0 := (hp y (List.mem_cons_self ..)).ne'
    simp only [List.zipWith_cons_cons]
    rw [div_mul_cancel₀ _ hy, zip_div_mul (by simpa using h) fun z hz => hp z (List.mem_cons_of_mem _ hz)]

/-- Scaling acts on the constants one by one. -/
theorem scale_const {op : ℝ → ℝ → ℝ} {fs : Factors ℝ} {s g : Sol ℝ} (h : scaleSol op fs s = .ok g)
    (hl : s.const.length = fs.const.length) : g.const = List.zipWith op s.const fs.const := by
  rw [scaleSol] at h
  obtain ⟨y', h1, h⟩ := bind_ok h
  obtain ⟨q', h2, h⟩ := bind_ok h
  obtain ⟨u', -, h⟩ := u_ok h
  obtain ⟨d', h4, h⟩ := bind_ok h
  obtain ⟨n', h5, h⟩ := bind_ok h
  obtain ⟨k', h6, h⟩ := bind_ok h
  cases h
  rw [bcast_eq hl] at h6
  cases h6
  rfl

/-- A call with a good guess keeps the shape and the constants. -/
theorem keeps_scaled {c : Config} (hR : c.solver.Ok) {un : Units} (hun : c.units = some un) {p : Prob} (hq : p.quads = []) :
    Keeps c p p.states.length p.constants.length (WellScaled c.functions Γ p un) := by
  rintro g r ⟨φ, hφ, hF⟩ hG hN h
  have hpos : ∀ ns, ∀ x ∈ sizes c.functions Γ φ ns, 0 < x := by
    intro ns x hx
    obtain ⟨s, -, rfl⟩ := List.mem_map.1 hx
    exact hφ.unit s φ hφ.pos
  rw [hun, solvePass] at h
  obtain ⟨fs, hfs, h⟩ := bind_ok h
  rw [hF] at hfs
  cases hfs
  obtain ⟨g', hg', h⟩ := bind_ok h
  obtain ⟨s1, hs1, h⟩ := bind_ok h
  cases s1 with
  | none => cases h
  | some s1 =>
    obtain ⟨r1, hr1, h⟩ := bind_ok h
    cases h
    have hT : 0 < eval (real c.functions) φ (Γ p.ind) := hφ.unit _ φ hφ.pos
    have hG' := scale_starts hq (fun _ _ hab => div_lt_div_of_pos_right hab hT) hg' hG
    obtain ⟨hG1, hk1⟩ := solveSol_starts hR hG' hs1
    refine ⟨scale_starts hq (fun _ _ hab => mul_lt_mul_of_pos_right hab hT) hr1 hG1, ?_⟩
    have hl : g.const.length = (sizes c.functions Γ φ p.constants).length := by simp [sizes, hN]
    have e1 := scale_const hg' hl
    have e2 := scale_const hr1 (by rw [hk1, e1, List.length_zipWith, hl, min_self])
    rw [e2, hk1, e1]
    exact zip_div_mul hl (hpos _)

/-! ### Property -/

/-- Whatever `solve` returns for a stated problem with autoscaling, the default (an indirect method; `Shooting`
with one arc and the default algorithm, or `SPBVP`), if the problem is dimensionally consistent and the scale factors of all guesses are positive:

* if the continuation consists of manual and bisection steps, the last solution of every step is converged and has the constants
  of the step at their targets, the other constants being those of the step before;
* the returned trajectories are, one by one, the results of the solver calls, mapped back; the first call starts from the guess
  and every later one from it or from a result before;
* each is the result for the constants that are reported with it; if it is flagged as converged, and its states are those of an
  exact solution `y` of the differential equations, then it consists of samples of a curve that satisfies the first-order
  necessary conditions of the stated problem up to `D` times the tolerance of the solver, where `D` is the largest of the sizes
  of the units of the boundary conditions that were used for this call.

Missing from the full property: everything that is missing from `C75_autoscaled_partial` and `C15_chain_targets`. -/
theorem C77_autoscaled_partial {c : Config} (hL : LuSound c.sympy) (hS : c.opts.controlMethod = .algebraic → SolveSound c.sympy)
    (hm : c.opts.momentumShift = true) (hR : c.solver.Ok) (hO : c.trig.sin = Real.sin) {un : Units} (hun : c.units = some un)
    {w : Solve.World Prob Bvp (Sol ℝ)} {a : Solve.Args Prob Bvp (Sol ℝ)} {p : Prob} (hp : Stated p) (hH : p.hamiltonian = none)
    (ha : a.ocp = some p) (hb : a.bvp = none) (hmeth : a.method.toLower ∈ ["indirect", "traditional", "brysonho", "diffyg"])
    (hd : c.opts.method = if a.method.toLower = "diffyg" then .diffyg else .traditional)
    (hfit : ∀ b s, Handed (world c w) a p b s → Fit c.solver b.prob s) {out : List (List (Sol ℝ))}
    (h : (Solve.solve (world c w) a).1 = .ok out) :
    ∃ b s q B calls, Handed (world c w) a p b s ∧ indirect c.sympy c.opts p = .ok b.prob ∧ primal c.sympy p = .ok q ∧
      Barriers B ∧
      Warm s calls.flatten ∧ (c.steps = none → ∃ r, calls = [[(s, r)]]) ∧
      List.Forall₂ (List.Forall₂ fun (x : Sol ℝ × Sol ℝ) s' =>
        solvePass c.solver c.functions b.prob (some un) x.1 = .ok (some x.2) ∧
        invIndirect c.sympy c.trig c.rule (real c.functions) c.opts p x.2 = .ok s' ∧ s'.const = x.2.const ∧
        s'.converged = x.2.converged) calls out ∧
      ∀ Γ T T', Dimensional c.functions Γ c.sympy c.opts p b.prob T T' →
        (∀ l ∈ calls, ∀ x ∈ l, WellScaled c.functions Γ b.prob un x.1) →
        (∀ ss, c.steps = some ss → (∀ s ∈ ss, Plainly s) → Reaches p.constants (ss.map Cont.Strat.targets) s.const out) ∧
        List.Forall₂ (List.Forall₂ fun (x : Sol ℝ × Sol ℝ) s' => c.solver.Starts b.prob.states.length x.1 ∧
          s'.const = x.1.const ∧
          ∀ φ D, Sizes c.functions Γ φ → Factored c.functions Γ φ b.prob un x.1 → Largest c.functions φ T' D →
          s'.converged = true → (∀ d ∈ x.2.dyn, 0 < d) → ∀ Q, Completes c.functions p Q →
          ∀ y, x.2.y = .rows b.prob.states.length (x.2.t.map y) →
            Flows c.functions b.prob (x.1.t.getD 0 0) (lastT x.1.t) y x.2.dyn s'.const →
          ∀ ρ, Reads c.functions b.prob (x.1.t.getD 0 0) (lastT x.1.t) y x.2.dyn x.2.nondyn s'.const ρ →
            Regular c.sympy c.functions q b.prob (x.1.t.getD 0 0) (lastT x.1.t) ρ →
          ∃ t₀ e z lam ν₀ ν₁, 0 < e ∧
            NearExtremal (userOcp c.functions Q B p) (c.solver.tol * D)
              (if c.opts.controlMethod = .algebraic then 0 else c.solver.tol * D) t₀
              (t₀ + e * (lastT x.1.t - x.1.t.getD 0 0)) z lam ν₀ ν₁ ∧
            s'.t = x.2.t.map (fun τ => t₀ + e * (τ - x.1.t.getD 0 0)) ∧ Returned Q p z lam s' ∧
            (Rule c.rule → Shift c.rule →
              s'.cost = some (stated c.rule c.functions p s'.t (fun i => Q (z (s'.t.getD i 0))) +
                penalised c.rule B c.functions p s'.t fun i => Q (z (s'.t.getD i 0)))) ∧
            (c.opts.controlMethod = .algebraic → Least c.sympy c.functions q (userOcp c.functions Q B p) t₀
              (t₀ + e * (lastT x.1.t - x.1.t.getD 0 0)) z lam) ∧
            Drawn ρ (x.1.t.getD 0 0) t₀ e z lam ν₀ ν₁) calls out := by
  obtain ⟨b, f, inv, s0, s1, s, set, h1, h2, h3, h4, h5, h6⟩ := solve_parts ha h
  have hand : Handed (world c w) a p b s := ⟨f, inv, s0, s1, h1, h2, h3, h4⟩
  obtain ⟨hG, hlen⟩ := hfit b s hand
  obtain ⟨e1, rfl⟩ := prepare_world hb hmeth hd h1
  have hd' : c.opts.method ≠ .other := by
    rw [hd]
    split <;> decide
  obtain ⟨q, B, hq, hB, key⟩ := C75_autoscaled_partial hL hp hH hm hd' hS e1
  have hks := indirect_constants hL hp hm hd' e1 hq
  have hquads : b.prob.quads = [] := indirect_quads hL hp hm hd' e1 hq
  have h5 : runSet c b s = .ok set := h5
  have hrel := mapM_rel h6
  have hinv : ∀ s s', invIndirect c.sympy c.trig c.rule (real c.functions) c.opts p s = .ok s' →
      s'.const = s.const ∧ s'.converged = s.converged := by
    intro s s' h
    obtain ⟨p1, -, h⟩ := bind_ok h
    obtain ⟨st, -, h⟩ := bind_ok h
    exact invSteps_keeps h
  obtain ⟨calls, hset, hwarm, hnone, hcalls, hkey⟩ := runSet_calls h5
  have hrel0 := hrel
  rw [hset, List.forall₂_map_left_iff] at hrel
  have hback : List.Forall₂ (List.Forall₂ fun (x : Sol ℝ × Sol ℝ) s' =>
      invIndirect c.sympy c.trig c.rule (real c.functions) c.opts p x.2 = .ok s') calls out := by
    refine forall₂_imp_mem hrel fun l hl l' hll => ?_
    have hll := mapM_rel hll
    rw [List.forall₂_map_left_iff] at hll
    exact hll
  refine ⟨b, s, q, B, calls, hand, e1, hq, hB, hwarm, hnone, ?_, ?_⟩
  · refine forall₂_imp_mem hback fun l hl l' hll => forall₂_imp_mem hll fun x hx s' hrs => ?_
    have k2 := hcalls l hl x hx
    rw [hun] at k2
    exact ⟨k2, hrs, hinv _ _ hrs⟩
  intro Γ T T' hdim hgood
  obtain ⟨hshape, hreach⟩ := hkey _ _ _ (keeps_scaled (Γ := Γ) hR hun hquads) hgood hG hlen
  refine ⟨?_, ?_⟩
  · intro ss hss hpl
    have hnd : b.prob.constants.Nodup := by
      rw [hks]
      have := hp.names
      simp only [List.nodup_append] at this
      exact this.1.1.2.1
    have := (hreach ss hss rfl hnd hpl).map hinv hrel0
    rw [hks] at this
    exact this
  · refine forall₂_imp_mem hback fun l hl l' hll => forall₂_imp_mem hll fun x hx s' hrs => ?_
    have k2 := hcalls l hl x hx
    rw [hun] at k2
    obtain ⟨k1, k3⟩ := hshape l hl x hx
    obtain ⟨i1, i2⟩ := hinv _ _ hrs
    refine ⟨k1, i1.trans k3, ?_⟩
    intro φ D hφ hF hD hc hpos Q hQ y hy hflow ρ hread hreg
    rw [i1] at hflow hread
    rw [i2] at hc
    obtain ⟨t₀, e, x, lam, ν₀, ν₁, m1, m2, m3, m4, -, m6, m7⟩ := key c.functions Q hQ c.trig c.rule hO Γ φ T T' hφ hdim.lu
      hdim.solve hdim.stated hdim.switches hdim.generated hdim.agrees hdim.names D hD c.solver un x.1 x.2 hR k1 hF k2 hc hpos y hy hflow
      ρ hread hreg s' hrs
    exact ⟨t₀, e, x, lam, ν₀, ν₁, m1, m2, m3, m4, m6, m7⟩

end Beluga.E2E
