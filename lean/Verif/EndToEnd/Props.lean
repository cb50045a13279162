import Verif.EndToEnd.Fore
import Verif.EndToEnd.Minimum

/-! # A returned solution samples an extremal of the stated problem (C73) -/

namespace Beluga.E2E

open Beluga.Sym Beluga.Sym.Expr Beluga.Num Beluga.Map Beluga.Opt Beluga.Rep

/-! ### Specification -/

/-- The tables of the solution `s` hold the states, costates and controls of the curve `x`, `lam` of the problem `p` at
the times of `s`, one row for every time; the symbols that the user defined have the values `Q` gives them. -/
structure Returned (Q : Env → Env) (p : Prob) (x : ℝ → Env) (lam : ℝ → Name → ℝ) (s : Sol ℝ) : Prop where
  states : s.y = .rows p.states.length (s.t.map fun t => p.states.map fun d => x t d.name)
  costates : s.dual = .rows p.states.length (s.t.map fun t => p.states.map fun d => lam t d.name)
  controls : s.u = .rows p.controls.length (s.t.map fun t => p.controls.map (Q (x t)))
  constants : ∀ t ∈ s.t, p.constants.map (x t) = s.const
  parameters : s.dyn = [] ∧ s.nondyn = []

/-- The curve `x` with its costates and multipliers is what `ρ` says, the values of all symbols of the compiled problem, where its time
`a` is the time `t₀` of the user and a unit of its time takes `c`. -/
structure Drawn (ρ : ℝ → Env) (a t₀ c : ℝ) (x : ℝ → Env) (lam : ℝ → Name → ℝ) (ν₀ ν₁ : Nat → ℝ) : Prop where
  curve : ∀ t, x t = ρ (a + (t - t₀) / c)
  costates : ∀ t n, lam t n = ρ (a + (t - t₀) / c) ("_lam_" ++ n)
  initial : ∀ i, ν₀ i = ρ a ("_nu_0_" ++ toString i)
  terminal : ∀ i, ν₁ i = ρ a ("_nu_f_" ++ toString i)

/-- The rule for integrals does not depend on the origin of time. -/
def Shift (rule : List ℝ → List ℝ → ℝ) : Prop := ∀ v t d, rule v (t.map (· + d)) = rule v t

/-! ### Lemmas -/

theorem dual_more {S : Sympy} (hL : LuSound S) {q p' : Prob} (hq : Clean q) {m : Method} (hm : m ≠ .other) {ctl : Step}
    {norm jac : Bool} (hctl : ctl = .algebraic ∨ ctl = .differential m)
    (h : runSteps S ([.dualize m, ctl] ++ (if norm then [.normalizeTime] else []) ++ [.squash] ++
      (if jac then [.jacobians] else [])) q = .ok p') :
    p'.parameters = (if norm then ["_delta" ++ q.ind] else []) ∧ p'.constants = q.constants ∧ p'.quads = q.quads := by
  rw [List.append_assoc, List.append_assoc, List.cons_append, List.cons_append, List.nil_append, runSteps_cons] at h
  obtain ⟨qd, hdu, h⟩ := bind_ok h
  rw [runSteps_cons] at h
  obtain ⟨q1, h1, h⟩ := bind_ok h
  rw [← List.append_assoc] at h
  obtain ⟨t1, t2, t3, t4, t5, t6, t7⟩ := tail_ok h
  obtain ⟨w1, w2, w3, w4⟩ := tail_more h
  have hD := dualize_any hL hq hm hdu
  have key : q1.parameters = q.parameters ∧ q1.constants = q.constants ∧ q1.ind = q.ind ∧ q1.quads = q.quads ∧
      q1.coparameters = [] := by
    rcases hctl with rfl | rfl
    · have h1 : algebraicControl S qd = .ok q1 := h1
      obtain ⟨dhdu, chain, e, -⟩ := algebraic_ok hD.ham h1
      rw [e]
      exact ⟨hD.parameters, hD.constants, hD.ind, hD.quads, hD.coparameters⟩
    · have hX := differential_any hL hD h1
      exact ⟨hX.parameters, hX.constants, hX.ind, hX.quads, hX.coparameters⟩
  obtain ⟨k1, k2, k3, k4, k5⟩ := key
  rw [w2, w3, t6, k1, k2, k3, k4, k5, hq.parameters]
  simp

theorem tab_index {ns : List Name} {ρ : ℝ → Env} {τs ts : List ℝ} {σ : Nat → Env} (hl : ts.length = τs.length)
    (hσ : ∀ i (h : i < τs.length), σ i = ρ τs[i]) :
    tab ns ρ τs = .rows ns.length ((List.range ts.length).map fun i => ns.map (σ i)) := by
  rw [tab]
  congr 1
  refine List.ext_getElem (by simp [hl]) fun i h1 h2 => ?_
  simp only [List.getElem_map, List.getElem_range]
  rw [hσ i (by simpa using h1)]

theorem functional_shift {rule : List ℝ → List ℝ → ℝ} (hr : Shift rule) (A B L : Env → ℝ) {t t' : List ℝ} {d : ℝ}
    (ht : t' = t.map (· + d)) (σ : Nat → Env) : functional rule A B L t' σ = functional rule A B L t σ := by
  subst ht
  simp only [functional, List.length_map]
  rw [hr]

theorem eq_map_of_zip {α β : Type} {f : α → β} : ∀ {l : List α} {m : List β}, l.length = m.length →
    (∀ x ∈ l.zip m, x.2 = f x.1) → m = l.map f
  | [], [], _, _ => rfl
  | [], _ :: _, h, _ => by cases h
  | _ :: _, [], h, _ => by cases h
  | a :: l, b :: m, h, hx => by
    rw [List.map_cons, ← eq_map_of_zip (f := f) (Nat.succ.inj h) fun x hm => hx x (List.mem_cons_of_mem _ hm)]
    exact congrArg (· :: m) (hx (a, b) (by simp))

/-- What the mappers of `inv_map_sol` make of rows of a curve that the compiled functions can be evaluated along: the problem
before `Dualize`, the dual steps, and the tables; the time must run at a constant pace. -/
theorem read_back {S : Sympy} (hL : LuSound S) {o : Opts} {p p' : Prob} (hp : Stated p)
    (hm : o.momentumShift = true) (hd : o.method ≠ .other) (h : indirect S o p = .ok p') :
    ∃ q p3 f f2 f3 ctl, primal S p = .ok q ∧ FrontOk p p3 q f f2 f3 ∧
      (ctl = .algebraic ∧ o.controlMethod = .algebraic ∨ ctl = .differential o.method ∧ o.controlMethod = .differential) ∧
      runSteps S ([.dualize o.method, ctl] ++ (if o.normalizeTime then [.normalizeTime] else []) ++ [.squash] ++
        (if o.analyticalJacobian && o.controlMethod ≠ .algebraic then [.jacobians] else [])) q = .ok p' ∧
      p'.quads = [] ∧ (o.normalizeTime = true → "_delta" ++ q.ind ∈ p'.parameters) ∧
      ∀ U Q B, Completes U p Q →
        ocpOf U p.ind (p.states.map fun d => ⟨d.name, f3 (f2 (f d.eom))⟩) p.constants q = userOcp U Q B p →
      ∀ (O : TrigOps ℝ) rule, O.sin = Real.sin →
      ∀ a b y pr pc k ρ, Reads U p' a b y pr pc k ρ → (∀ x ∈ pr, 0 < x) →
        (∀ τ ∈ Set.Icc a b, ∃ ou, computeU (real U) p' (y τ) pr k = .ok ou) →
      ∀ s s' : Sol ℝ, s.t ≠ [] → (∀ τ ∈ s.t, τ ∈ Set.Icc a b) → s.y = .rows p'.states.length (s.t.map y) → s.dyn = pr →
        s.const = k → invIndirect S O rule (real U) o p s = .ok s' →
      ∀ c, c = (if o.normalizeTime then ρ a ("_delta_" ++ p.ind) else 1) →
        0 < c ∧ (p'.controls = [] ∨ p'.controlLaw ≠ []) ∧
        ((∀ τ ∈ Set.Icc a b, ρ τ p.ind = ρ a p.ind + c * (τ - a)) →
          s'.t = s.t.map (fun τ => ρ a p.ind + c * (τ - a)) ∧
          Returned Q p (fun s => ρ (a + (s - ρ a p.ind) / c)) (fun s n => ρ (a + (s - ρ a p.ind) / c) ("_lam_" ++ n)) s' ∧
          s'.const = k ∧ s'.dualT = s'.t.map (fun s => ρ (a + (s - ρ a p.ind) / c) (lamName p.ind)) ∧
          (Rule rule → Shift rule → s'.cost = some (
            stated rule U p s'.t (fun i => Q (ρ (a + (s'.t.getD i 0 - ρ a p.ind) / c))) +
            penalised rule B U p s'.t fun i => Q (ρ (a + (s'.t.getD i 0 - ρ a p.ind) / c)))) ∧
          (o.controlMethod = .algebraic → Least S U q (userOcp U Q B p) (ρ a p.ind) (ρ a p.ind + c * (b - a))
            (fun s => ρ (a + (s - ρ a p.ind) / c)) (fun s n => ρ (a + (s - ρ a p.ind) / c) ("_lam_" ++ n)))) := by
  obtain ⟨p1, g1, h⟩ := bind_ok h
  obtain ⟨steps, g2, h⟩ := bind_ok h
  obtain ⟨ineq, ctl, hineq, hctl, rfl⟩ := indirectSteps_ok g2
  have hsplit : (if o.momentumShift then [Step.momentumShift] else []) ++ ineq ++
        (if p1.switches.length > 0 then [.rashs] else []) ++ [.dualize o.method, ctl] ++
        (if o.normalizeTime then [.normalizeTime] else []) ++ [.squash] ++
        (if o.analyticalJacobian && o.controlMethod ≠ .algebraic then [.jacobians] else []) =
      (.momentumShift :: (ineq ++ if p1.switches.length > 0 then [.rashs] else [])) ++
        ([.dualize o.method, ctl] ++ (if o.normalizeTime then [.normalizeTime] else []) ++ [.squash] ++
        (if o.analyticalJacobian && o.controlMethod ≠ .algebraic then [.jacobians] else [])) := by
    rw [if_pos hm]
    simp
  rw [hsplit, runSteps_append] at h
  obtain ⟨q, hq, h⟩ := bind_ok h
  have hprimal : primal S p = .ok q := by
    rw [primal, g1]
    change (ineqSteps _ >>= _) = _
    rw [hineq]
    exact hq
  obtain ⟨p3, f, f2, f3, hf⟩ := front hp hprimal
  have hcl := hf.clean hp
  have hctl' : ctl = .algebraic ∨ ctl = .differential o.method := hctl.imp And.left And.left
  have hd' := h
  obtain ⟨m1, m2, m3⟩ := dual_more hL hcl hd hctl' hd'
  refine ⟨q, p3, f, f2, f3, ctl, hprimal, hf, hctl, h, by rw [m3, hf.empty.2.2.2.1], fun hn => by rw [m1, if_pos hn]; simp, ?_⟩
  intro U Q B hQ hocp O rule hO a b y pr pc k ρ hread hpr hcomp s s' hne hgrid hy hdyn hconst hinv c hc
  have hname : "_delta" ++ q.ind = "_delta_" ++ p.ind := by
    rw [hf.ind, ← String.append_assoc]
    rfl
  obtain ⟨hqk, hfi⟩ := front_inv (O := O) (rule := rule) (U := U) hO hp g1 hineq hq
  -- the mappers
  rw [invIndirect, g1, ok_bind', g2, ok_bind', hsplit] at hinv
  obtain ⟨q', s1, e1, i1, i2⟩ := invSteps_append hinv
  rw [hq] at e1
  cases e1
  have hlen : p'.states.length = (sts p').length := by simp [sts]
  have hplk : ∀ x, Plain p x → x ≠ q.ind := fun x hx => by rw [hf.ind]; exact hx.2
  obtain ⟨hlaw, v, hv, e1⟩ := dual_inv (O := O) (rule := rule) (U := U) hL hcl hd (s := s) (a := a) (ρ := ρ) (τs := s.t) (k := k)
    hctl' hd' hne (by
      rw [hy, hlen, tab]
      congr 1
      exact List.map_congr_left fun τ _ => (hread.states τ).symm) rfl (by rw [hdyn, hread.parameters a]) hconst (by
      intro τ hτ
      rw [hread.states τ, hdyn]
      exact hcomp τ (hgrid τ hτ)) (by
      intro τ hτ u hu
      rw [hread.states τ, hdyn] at hu
      exact hread.controls τ (hgrid τ hτ) u hu) (by
      have h1 : ∀ x ∈ sts q, Plain p x := by
        intro x hx
        have hx : x ∈ q.states.map Dyn.name := hx
        rw [hf.names] at hx
        exact hp.plain x (by simp only [List.mem_append] at hx ⊢; tauto)
      simp only [List.mem_append, not_or]
      refine ⟨⟨⟨fun hh => hplk _ (h1 _ hh) rfl, fun hh => ?_⟩, fun hh => hplk _ (hf.control_mem hp hh).1 rfl⟩, fun hh => ?_⟩
      · obtain ⟨d, -, e⟩ := List.mem_map.1 hh
        exact hp.ind (Or.inl ⟨d.name, by rw [← hf.ind, ← e]; rfl⟩)
      · rw [hqk] at hh
        exact hplk _ (hp.plain _ (by simp [hh])) rfl) (by
      rw [hqk]
      intro hh
      exact (hp.plain _ (List.mem_append_right _ hh)).1 (Or.inr (Or.inr (Or.inr (Or.inl ⟨_, rfl⟩))))) i1
  have hkρ : ∀ τ, p.constants.map (ρ τ) = k := by
    intro τ
    rw [← hread.constants τ, m2, hqk]
  have e2 := hfi hQ (ρ := ρ) (τs := s.t) (k := k) (T := fun t => t * pace o.normalizeTime q.ind a ρ) (s := s1)
    (by rw [e1]) (by rw [e1]) (by rw [e1]) (by rw [e1]) (by rw [e1]) (by rw [e1]; exact hconst) (fun τ _ => hkρ τ) i2
  have hpace : pace o.normalizeTime q.ind a ρ = c := by rw [hc, pace, hname]
  have hpos : 0 < c := by
    rw [hc]
    split
    · next hn =>
      refine hpr _ ?_
      rw [← hread.parameters a, m1, if_pos hn, hname]
      simp
    · exact one_pos
  refine ⟨hpos, hlaw, fun hline => ?_⟩
  have hback : ∀ τ, a + (ρ a p.ind + c * (τ - a) - ρ a p.ind) / c = τ := by
    intro τ
    rw [add_sub_cancel_left, mul_div_cancel_left₀ _ hpos.ne']
    ring
  have ht' : s'.t = s.t.map fun τ => ρ a p.ind + c * (τ - a) := by
    rw [e2]
    exact List.map_congr_left fun τ hτ => hline τ (hgrid τ hτ)
  have htab : ∀ ns (σ : ℝ → Env), tab ns σ s.t = .rows ns.length (s'.t.map fun t => ns.map (σ (a + (t - ρ a p.ind) / c))) := by
    intro ns σ
    rw [ht', tab, List.map_map]
    congr 1
    refine List.map_congr_left fun τ _ => ?_
    simp only [Function.comp_apply]
    rw [hback]
  refine ⟨ht', ⟨?_, ?_, ?_, ?_, ?_⟩, ?_, ?_, ?_, ?_⟩
  · have : s'.y = tab (p.states.map Dyn.name) ρ s.t := by rw [e2]
    rw [this, htab, List.length_map]
    simp only [List.map_map]
    rfl
  · have : s'.dual = tab (p.states.map fun d => lamName d.name) ρ s.t := by rw [e2]
    rw [this, htab, List.length_map]
    simp only [List.map_map]
    rfl
  · have : s'.u = tab p.controls (fun τ => Q (ρ τ)) s.t := by rw [e2]
    rw [this, htab]
  · intro t _
    rw [hkρ, e2, e1]
    exact hconst.symm
  · rw [e2, e1]
    exact ⟨rfl, rfl⟩
  · rw [e2, e1]
    exact hconst
  · have : s'.dualT = s.t.map fun τ => ρ τ (lamName p.ind) := by rw [e2]
    rw [this, ht', List.map_map]
    refine List.map_congr_left fun τ _ => ?_
    simp only [Function.comp_apply]
    rw [hback]
  · intro hrule hshift
    have hcost : s'.cost = some v := by rw [e2, e1]
    rw [hcost]
    congr 1
    rw [hpace] at hv
    have hlt : s'.t.length = s.t.length := by rw [ht', List.length_map]
    have hσ : ∀ i (hi : i < s.t.length), ρ (a + (s'.t.getD i 0 - ρ a p.ind) / c) = ρ s.t[i] := by
      intro i hi
      have : s'.t.getD i 0 = ρ a p.ind + c * (s.t[i] - a) := by
        rw [ht']
        simp [hi]
      rw [this, hback]
    have hval := cost_of_ocp hf (hocp) hrule (t := s.t.map fun t => t * c)
      (σ := fun i => ρ (a + (s'.t.getD i 0 - ρ a p.ind) / c)) (k := k)
      ⟨tab_index (by simp) hσ, tab_index (by simp) hσ, fun i _ => by rw [hqk]; exact hkρ _⟩ hv
    rw [hval]
    have hsh : s'.t = (s.t.map fun t => t * c).map (· + (ρ a p.ind - c * a)) := by
      rw [ht', List.map_map]
      refine List.map_congr_left fun τ _ => ?_
      simp only [Function.comp_apply]
      ring
    simp only [stated, penalised]
    rw [functional_shift hshift _ _ _ hsh, functional_shift hshift _ _ _ hsh]
  · intro halg t ht σ hσ hsta hsm hfind
    have hcu : (userOcp U Q B p).controls = q.controls := by rw [← hocp]; rfl
    rw [hcu] at hσ
    have hτ : a + (t - ρ a p.ind) / c ∈ Set.Icc a b := by
      refine ⟨le_add_of_nonneg_right (div_nonneg (sub_nonneg.2 ht.1) hpos.le), ?_⟩
      have : (t - ρ a p.ind) / c ≤ b - a := by
        rw [div_le_iff₀ hpos]
        linarith [ht.2]
      linarith
    have hlam : (fun n => ρ (a + (t - ρ a p.ind) / c) ("_lam_" ++ n)) = fun n => σ (lamName n) := by
      funext n
      refine (hσ _ fun hh => ?_).symm
      exact (hf.control_mem hp hh).1.1 (Or.inl ⟨n, rfl⟩)
    have hne : ∀ u ∈ q.controls, ∀ s ∈ q.states, u ≠ lamName s.name := by
      rintro u hu s - rfl
      exact (hf.control_mem hp hu).1.1 (Or.inl ⟨s.name, rfl⟩)
    have hev : ∀ u ∈ q.controls, eval (real U) σ ((hexpr q).diff u) = 0 := by
      intro u hu
      have h1 := hsta u (by rw [hcu]; exact hu)
      dsimp only at h1
      rw [hlam, ← hocp] at h1
      have h2 := ham_partial (fixed := p.constants) hf.states (hne u hu) (hasPartial_H hsm u)
      exact HasDerivAt.unique h2 h1
    have halgc : ctl = .algebraic := by
      rcases hctl with hh | hh
      · exact hh.1
      · rw [halg] at hh; cases hh.2
    rw [halgc] at hd'
    have hle := chosen_least hL hcl hd hd' (by
      intro u hu hh
      have hcm := hf.control_mem hp hu
      rw [m1, m2, hqk, List.mem_append] at hh
      rcases hh with hh | hh
      · split at hh
        · rw [List.mem_singleton] at hh
          exact hcm.1.1 (Or.inr (Or.inr (Or.inr (Or.inl ⟨_, hh⟩))))
        · cases hh
      · exact hcm.2 (by simp [hh])) hread hτ (by
      exact hcomp _ hτ) hσ hev hfind
    rw [eval_hamiltonianOf, eval_hamiltonianOf, ← ham_eq hf.states p.constants, ← ham_eq hf.states p.constants,
      hocp] at hle
    dsimp only
    have e : ρ (a + (t - ρ a p.ind) / c) (lamName p.ind) = σ (lamName p.ind) := congrFun hlam p.ind
    rw [e, add_le_add_iff_right, ← hlam] at hle
    exact hle


/-! ### Property -/

/-- A solution that a solver accepts, because the boundary conditions hold up to its tolerance `ε`, is returned as samples of a
curve that satisfies the first-order necessary conditions of the stated problem up to that tolerance: the equations of motion
and the adjoint equations along the whole path, the boundary and transversality conditions up to `ε`; the controls are
stationary up to `η`, which is zero with the algebraic control law and `ε` with the differential one.

Missing from the full property: the error of the integration; everything that is missing from `C73_returned_partial`. -/
theorem C74_converged_partial {S : Sympy} (hL : LuSound S) {o : Opts} {p p' : Prob} (hp : Stated p)
    (hm : o.momentumShift = true) (hd : o.method ≠ .other) (hS : o.controlMethod = .algebraic → SolveSound S)
    (h : indirect S o p = .ok p') :
    ∃ q B, primal S p = .ok q ∧ Barriers B ∧
      ∀ U Q, Completes U p Q → ∀ (O : TrigOps ℝ) rule, O.sin = Real.sin →
      ∀ ε η, 0 ≤ ε → η = (if o.controlMethod = .algebraic then 0 else ε) →
      ∀ a b y pr pc k ρ, a ≤ b → NumNear U p' ε a b y pr pc k → Reads U p' a b y pr pc k ρ → Regular S U q p' a b ρ →
        (∀ x ∈ pr, 0 < x) →
      ∀ s s' : Sol ℝ, s.t ≠ [] → (∀ τ ∈ s.t, τ ∈ Set.Icc a b) → s.y = .rows p'.states.length (s.t.map y) → s.dyn = pr →
        s.const = k → invIndirect S O rule (real U) o p s = .ok s' →
      ∃ t₀ c x lam ν₀ ν₁, 0 < c ∧ NearExtremal (userOcp U Q B p) ε η t₀ (t₀ + c * (b - a)) x lam ν₀ ν₁ ∧
        s'.t = s.t.map (fun τ => t₀ + c * (τ - a)) ∧ Returned Q p x lam s' ∧ s'.const = k ∧
        s'.dualT.length = s'.t.length ∧
        (∀ tl ∈ s'.t.zip s'.dualT, |(userOcp U Q B p).ham (lam tl.1) (x tl.1) + tl.2| ≤ ε +
          η * ((userOcp U Q B p).controls.map fun u => |x (t₀ + c * (b - a)) u - x tl.1 u|).sum) ∧
        (Rule rule → Shift rule → s'.cost = some (stated rule U p s'.t (fun i => Q (x (s'.t.getD i 0))) +
          penalised rule B U p s'.t fun i => Q (x (s'.t.getD i 0)))) ∧
        (o.controlMethod = .algebraic → Least S U q (userOcp U Q B p) t₀ (t₀ + c * (b - a)) x lam) ∧ Drawn ρ a t₀ c x lam ν₀ ν₁ := by
  obtain ⟨q, p3, f, f2, f3, ctl, hprimal, hf, hctl, hsteps, hquads, -, hback⟩ := read_back hL hp hm hd h
  obtain ⟨B, hB, hocp⟩ := hf.ocp
  refine ⟨q, B, hprimal, hB, ?_⟩
  intro U Q hQ O rule hO ε η hε hη a b y pr pc k ρ hab hnum hread hreg hpr s s' hne hgrid hy hdyn hconst hinv
  have hcl := hf.clean hp
  obtain ⟨c, hc⟩ : ∃ c, c = if o.normalizeTime then ρ a ("_delta_" ++ p.ind) else 1 := ⟨_, rfl⟩
  obtain ⟨hpos, hlaw, hback⟩ := hback U Q B hQ (hocp U Q hQ) O rule hO a b y pr pc k ρ hread hpr (by
    intro τ hτ
    obtain ⟨w, hw, -⟩ := hnum.rates τ hτ
    rw [derivFunc, atPoint] at hw
    obtain ⟨ou, hou, -⟩ := bind_ok hw
    exact ⟨ou, hou⟩) s s' hne hgrid hy hdyn hconst hinv c hc
  have hsol : NearlySolves U p' ε a b ρ := hnum.solves hab hread hquads hlaw
  have hext := hf.extremal hL hp hctl hd hS hsteps hocp U Q hQ ε η a b ρ hε hη hab hsol hreg c hc hpos
  obtain ⟨hdual, -, hfree⟩ := hf.dual hL hp hctl hd hS hsteps hε hη hab hsol hreg hc hpos
  obtain ⟨ht', hret, hk, hdT, hcost, hleast⟩ := hback (time_line hdual (t := p.ind) (by simp [hf.states]))
  refine ⟨ρ a p.ind, c, _, _, _, _, hpos, hext, ht', hret, hk, by rw [hdT, List.length_map], ?_, hcost, hleast,
    fun _ => rfl, fun _ _ => rfl, fun _ => rfl, fun _ => rfl⟩
  have hinv : ∀ τ, a + (ρ a p.ind + c * (τ - a) - ρ a p.ind) / c = τ := by
    intro τ
    rw [add_sub_cancel_left, mul_div_cancel_left₀ _ hpos.ne']
    ring
  rw [hdT, ht', List.map_map, List.zip_map', List.forall_mem_map]
  intro τ hτ
  have he := hdual.energy hcl.toNamed hf.states hfree hreg.rates p.constants τ (hgrid τ hτ)
  have hcu : (userOcp U Q B p).controls = q.controls := by rw [← hocp U Q hQ]; rfl
  rw [hocp U Q hQ] at he
  simp only [Function.comp_apply]
  rw [hinv, hinv, hcu]
  exact he

/-- Every solution that beluga returns holds samples of an extremal of the problem that the user stated: given an exact
solution of the compiled boundary value problem, sampled on any grid, the mappers of `inv_map_sol` return the states,
costates and controls of a curve that satisfies the first-order necessary conditions of the stated problem, at the times of
the user (from `t₀` on, `c` for every unit of the grid), with the constants that were used, the costate of time, and the cost.

Missing from the full property: numerical error; everything that is missing from `C64_extremal_partial` (parameters,
quadratures, one-sided constraints, `momentumShift` switched off, clashing names); the cost contains the penalties
(`C72_violated`). -/
theorem C73_returned_partial {S : Sympy} (hL : LuSound S) {o : Opts} {p p' : Prob} (hp : Stated p)
    (hm : o.momentumShift = true) (hd : o.method ≠ .other) (hS : o.controlMethod = .algebraic → SolveSound S)
    (h : indirect S o p = .ok p') :
    ∃ q B, primal S p = .ok q ∧ Barriers B ∧
      ∀ U Q, Completes U p Q → ∀ (O : TrigOps ℝ) rule, O.sin = Real.sin →
      ∀ a b y pr pc k ρ, a ≤ b → NumSol U p' a b y pr pc k → Reads U p' a b y pr pc k ρ → Regular S U q p' a b ρ →
        (∀ x ∈ pr, 0 < x) →
      ∀ s s' : Sol ℝ, s.t ≠ [] → (∀ τ ∈ s.t, τ ∈ Set.Icc a b) → s.y = .rows p'.states.length (s.t.map y) → s.dyn = pr →
        s.const = k → invIndirect S O rule (real U) o p s = .ok s' →
      ∃ t₀ c x lam ν₀ ν₁, 0 < c ∧ Extremal (userOcp U Q B p) t₀ (t₀ + c * (b - a)) x lam ν₀ ν₁ ∧
        s'.t = s.t.map (fun τ => t₀ + c * (τ - a)) ∧ Returned Q p x lam s' ∧ s'.const = k ∧
        s'.dualT = s'.t.map (fun t => -((userOcp U Q B p).ham (lam t) (x t))) ∧
        (Rule rule → Shift rule → s'.cost = some (stated rule U p s'.t (fun i => Q (x (s'.t.getD i 0))) +
          penalised rule B U p s'.t fun i => Q (x (s'.t.getD i 0)))) ∧
        (o.controlMethod = .algebraic → Least S U q (userOcp U Q B p) t₀ (t₀ + c * (b - a)) x lam) ∧ Drawn ρ a t₀ c x lam ν₀ ν₁ := by
  obtain ⟨q, B, h1, h2, h3⟩ := C74_converged_partial hL hp hm hd hS h
  refine ⟨q, B, h1, h2, ?_⟩
  intro U Q hQ O rule hO a b y pr pc k ρ hab hnum hread hreg hpr s s' hne hgrid hy hdyn hconst hinv
  obtain ⟨t₀, c, x, lam, ν₀, ν₁, g1, g2, g3, g4, g5, g6, g7, g8, g9⟩ := h3 U Q hQ O rule hO 0 0 (le_refl _) (by simp) a b y pr pc k ρ hab
    hnum.near hread hreg hpr s s' hne hgrid hy hdyn hconst hinv
  refine ⟨t₀, c, x, lam, ν₀, ν₁, g1, nearExtremal_zero.1 g2, g3, g4, g5, ?_, g8, g9⟩
  refine eq_map_of_zip g6.symm fun tl htl => ?_
  have := g7 tl htl
  rw [zero_mul, add_zero] at this
  exact eq_neg_of_add_eq_zero_right (abs_nonpos_iff.1 this)

/-! ### A concrete case -/

noncomputable def exGrid : List ℝ := [0, 1 / 2, 1]

/-- Samples of the solution of the boundary value problem: `x = t = τ`, `λ = -2`, over a time of 1. -/
noncomputable def exSol : Sol ℝ where
  t := exGrid
  dualT := []
  y := .rows 4 (exGrid.map fun τ => [τ, τ, -2, 0])
  dual := .empty
  q := .empty
  u := .empty
  dualU := .empty
  dyn := [1]
  nondyn := [2, 0, -2]
  const := [0]
  converged := true
  cost := none

theorem ok_of {α : Type} {x : Py α} (h : (match x with | .ok _ => true | .error _ => false) = true) : ∃ v, x = .ok v := by
  cases x with
  | ok v => exact ⟨v, rfl⟩
  | error e => cases h

theorem exInv (U : Name → Nat → ℝ → ℝ) (O : TrigOps ℝ) (rule : List ℝ → List ℝ → ℝ) :
    ∃ s', invIndirect exS O rule (real U) exO exP exSol = .ok s' := by
  refine ok_of ?_
  rfl

theorem exRead (U : Name → Nat → ℝ → ℝ) : Reads U exP' 0 1 (fun τ => [τ, τ, -2, 0]) [1] [2, 0, -2] [0] exCurve := by
  have h1 : sts exP' = ["x", "t", "_lam_x", "_lam_t"] := by decide +kernel
  have h2 : exP'.parameters = ["_delta_t"] ∧ exP'.constraintParams = ["_nu_0_0", "_nu_0_1", "_nu_f_0"] ∧
    exP'.constants = ["eps"] := by decide +kernel
  obtain ⟨r1, r2, r3, r4⟩ := exP'_rest
  refine ⟨?_, ?_, ?_, ?_, ?_, ?_⟩
  · intro t
    rw [h1]
    simp [exCurve]
  · intro t _ u hu
    obtain ⟨opt, ho, rfl⟩ := computeU_some (σ := exCurve t) (by rw [h1]; simp [exCurve]) (by rw [h2.1]; simp [exCurve])
      (by rw [h2.2.2]; simp [exCurve]) hu
    rw [r2, List.mem_singleton] at ho
    subst ho
    rw [r1]
    simp [exCurve, eval]
  · intro t
    rw [h2.1]
    simp [exCurve]
  · intro t
    rw [h2.2.1]
    simp [exCurve]
  · intro t
    rw [h2.2.2]
    simp [exCurve]
  · intro s n1 n2 n3 t t'
    rw [h1] at n1
    rw [r4] at n3
    simp only [List.mem_cons, not_or] at n1
    simp [exCurve, n1.1, n1.2.1, n3]

theorem exNum (U : Name → Nat → ℝ → ℝ) : NumSol U exP' 0 1 (fun τ => [τ, τ, -2, 0]) [1] [2, 0, -2] [0] := by
  refine numSol_of_solves (exRead U) (by norm_num) exP'_rest.2.2.1 (exSolves U) ?_ ?_
  · intro t _
    refine ok_of ?_
    rfl
  · refine ok_of ?_
    rfl

theorem trapezoids_shift : Shift trapezoids := by
  intro v t d
  induction t generalizing v with
  | nil => simp
  | cons t₀ t ih =>
    match v, t with
    | [], _ => simp [trapezoids]
    | [_], _ => simp [trapezoids]
    | _ :: _ :: _, [] => simp [trapezoids]
    | a :: a' :: v, t₁ :: t =>
      have := ih (a' :: v)
      simp only [List.map_cons, trapezoids] at this ⊢
      rw [this]
      ring

/-- For the example of `C64_extremal_partial`: from the three samples the user gets the line `x = t` with the control 1 and the
costate -2; the cost is 2 and the penalty for the terminal point. -/
example (U : Name → Nat → ℝ → ℝ) (O : TrigOps ℝ) (hO : O.sin = Real.sin) :
    ∃ s', invIndirect exS O trapezoids (real U) exO exP exSol = .ok s' ∧ s'.t = [0, 1 / 2, 1] ∧
      s'.y = .rows 1 [[0], [1 / 2], [1]] ∧ s'.u = .rows 1 [[1], [1], [1]] ∧ s'.dual = .rows 1 [[-2], [-2], [-2]] ∧
      ∃ B x lam ν₀ ν₁, Extremal (userOcp U exQ B exP) 0 1 x lam ν₀ ν₁ ∧ Returned exQ exP x lam s' ∧
        s'.cost = some (2 + penalties B U (exQ (x 1)) exP.terminal) := by
  obtain ⟨s', hs'⟩ := exInv U O trapezoids
  have hfields : s'.t = [0, 1 / 2, 1] ∧ s'.y = .rows 1 [[0], [1 / 2], [1]] ∧ s'.dual = .rows 1 [[-2], [-2], [-2]] ∧
      s'.u = .rows 1 (List.replicate 3 [eval (real U) (fun _ => -2) (-(sym "_lam_x") / 2)]) := by
    have : invIndirect exS O trapezoids (real U) exO exP exSol = .ok s' := hs'
    cases this
    exact ⟨rfl, rfl, rfl, rfl⟩
  obtain ⟨f1, f2, f3, f4⟩ := hfields
  have hu : eval (real U) (fun _ => -2) (-(sym "_lam_x") / 2) = 1 := by simp [eval]
  rw [hu] at f4
  obtain ⟨q, B, hq, hB, h⟩ := C73_returned_partial (luSound_cramer exS rfl) exP_stated (o := exO) rfl (by decide)
    (fun _ => exS_sound) exP'_ok
  rw [exq_ok] at hq
  cases hq
  obtain ⟨t₀, c, x, lam, ν₀, ν₁, hc, hext, ht, hret, -, -, hcost, -⟩ := h U exQ (exQ_completes U) O trapezoids hO 0 1 _ _ _ _ _ (by norm_num)
    (exNum U) (exRead U) (exRegular U) (by simp) exSol s' (by simp [exSol, exGrid])
    (by simp only [exSol, exGrid]; intro τ hτ; simp at hτ; rcases hτ with rfl | rfl | rfl <;> norm_num) rfl rfl rfl hs'
  have ht0 : t₀ = 0 ∧ c = 1 := by
    rw [f1] at ht
    simp [exSol, exGrid] at ht
    obtain ⟨rfl, -, h2⟩ := ht
    exact ⟨rfl, by linarith⟩
  obtain ⟨rfl, rfl⟩ := ht0
  have hcost := hcost trapezoids_rule trapezoids_shift
  refine ⟨s', hs', f1, f2, f4, f3, B, x, lam, ν₀, ν₁, by simpa using hext, hret, ?_⟩
  have hu : ∀ t ∈ s'.t, exQ (x t) "u" = 1 := by
    have := hret.controls
    rw [f4, f1] at this
    simp [exP] at this
    rw [f1]
    intro t ht
    simp only [List.mem_cons, List.not_mem_nil, or_false] at ht
    rcases ht with rfl | rfl | rfl
    · exact this.1.symm
    · simpa using this.2.1.symm
    · exact this.2.2.symm
  have hE : ∀ t, exQ (x t) "E" = exQ (x t) "u" * exQ (x t) "u" := fun t => by simp [Opt.exQ]
  rw [f1] at hu hcost
  rw [hcost]
  congr 1
  have h0 := hu 0 (by simp)
  have h1 := hu (1 / 2) (by simp)
  have h2 := hu 1 (by simp)
  simp only [stated, penalised, functional, exP, List.length_cons, List.length_nil, List.range_succ_eq_map, List.range_zero,
    List.map_cons, List.map_nil, trapezoids, penalties, List.filter_cons, List.filter_nil]
  simp [eval, hE, Con.twoSided, penalty] at h0 h1 h2 ⊢
  rw [h0, h1, h2]
  ring

/-! ### A concrete case with a tolerance

For the same problem, a line that is one percent too fast: it misses the end by 1/100, and the condition for the final time by
about 1/50. -/

noncomputable def fast (τ : ℝ) (s : Name) : ℝ :=
  if s = "t" ∨ s = "_tau" then τ else if s = "x" then 101 / 100 * τ else if s = "u" then 101 / 100
  else if s = "_delta_t" then 1 else if s = "_lam_x" ∨ s = "_nu_f_0" then -(101 / 50) else if s = "_nu_0_0" then 101 / 50 else 0

theorem fast_const (s : Name) (h : s ≠ "x") (h2 : s ≠ "t") (h3 : s ≠ "_tau") (τ τ' : ℝ) : fast τ s = fast τ' s := by
  simp [fast, h, h2, h3]

theorem fast_moves (s : Name) (h : s ≠ "x") (h2 : s ≠ "t") (h3 : s ≠ "_tau") : Moves 0 1 fast 0 s := by
  intro t _
  rw [show (fun τ => fast τ s) = fun _ => fast 0 s from funext fun τ => fast_const s h h2 h3 τ 0]
  exact hasDerivAt_const _ _

theorem fastSolves (U : Name → Nat → ℝ → ℝ) : NearlySolves U exP' (1 / 40) 0 1 fast where
  follows := by
    intro t ht d hd
    rw [exP'_states, exh] at hd
    simp only [List.mem_cons, List.not_mem_nil, or_false] at hd
    rcases hd with rfl | rfl | rfl | rfl
    · have : HasDerivAt (fun τ => fast τ "x") (101 / 100 * 1) t := by
        rw [show (fun τ => fast τ "x") = fun τ => 101 / 100 * τ from funext fun τ => by simp [fast]]
        exact (hasDerivAt_id' t).const_mul _
      simpa [eval, fast] using this
    · have : HasDerivAt (fun τ => fast τ "t") 1 t := by
        rw [show (fun τ => fast τ "t") = fun τ => τ from funext fun τ => by simp [fast]]
        exact hasDerivAt_id' t
      simpa [eval, fast] using this
    · have := fast_moves "_lam_x" (by decide) (by decide) (by decide) t ht
      simpa [eval, diff, fast] using this
    · have := fast_moves "_lam_t" (by decide) (by decide) (by decide) t ht
      simpa [eval, diff, fast] using this
  fixed := by
    intro s h1 h2 h3 h4
    rw [exP'_states] at h1
    rw [exP'_rest.2.2.2] at h4
    simp only [List.map_cons, List.mem_cons, not_or] at h1
    exact fast_moves s h1.1 h1.2.1 h4
  law := by
    intro _ t _
    rw [exP'_rest.1, exP'_rest.2.1]
    refine ⟨_, List.mem_singleton_self _, ?_⟩
    simp [eval, fast]
    norm_num
  initial := by
    intro c hc
    have : c.expr ∈ exP'.initial.map Con.expr := List.mem_map.2 ⟨c, hc, rfl⟩
    rw [exP'_initial, exphi0] at this
    simp only [List.mem_cons, List.not_mem_nil, or_false] at this
    rcases this with h | h | h | h <;> rw [h] <;> simp [eval, diff, fast]
  terminal := by
    intro c hc
    have : c.expr ∈ exP'.terminal.map Con.expr := List.mem_map.2 ⟨c, hc, rfl⟩
    rw [exP'_terminal, exphif, exh] at this
    simp only [List.mem_cons, List.not_mem_nil, or_false] at this
    rcases this with h | h | h | h <;> rw [h] <;> simp [eval, diff, fast, utmTerm] <;> norm_num [abs_le]

theorem smooth_utm' {U : Name → Nat → ℝ → ℝ} {ρ : Env} (h1 : -1 < ρ "x") (h2 : ρ "x" < 3) :
    Smooth U ρ (utmTerm (sym "eps") (sym "x") (num (-1)) 3) := by
  refine ⟨trivial, smooth_sub ⟨trivial, ⟨⟨⟨⟨trivial, trivial, ?_⟩, smooth_sub (smooth_sub ⟨trivial, trivial⟩ trivial) trivial⟩,
    smooth_sub trivial trivial, ?_⟩, trivial⟩, ?_⟩ trivial⟩
  · simp [eval]
  · simp [eval]; norm_num
  · have key : Real.cos (Real.pi / 2 * (2 * ρ "x" - 3 - (-1)) / (3 - (-1))) ≠ 0 := by
      refine (Real.cos_pos_of_mem_Ioo ⟨?_, ?_⟩).ne' <;> nlinarith [Real.pi_pos]
    have e1 : ∀ v, (real U).fn .cos v = Real.cos v := fun _ => rfl
    have e2 : (real U).pi = Real.pi := rfl
    simpa [eval, e1, e2] using key

theorem fastEnds (U : Name → Nat → ℝ → ℝ) {ρ : Env} (h1 : -1 < ρ "x") (h2 : ρ "x" < 3) : SmoothEnds exq U ρ := by
  rw [SmoothEnds, exq_costInitial, exq_costTerminal, exq_initial, exq_terminal]
  refine ⟨trivial, ⟨trivial, smooth_utm' h1 h2⟩, ?_⟩
  intro c hc
  simp only [List.mem_append, List.mem_cons, List.not_mem_nil, or_false] at hc
  rcases hc with (rfl | rfl) | rfl
  · trivial
  · trivial
  · exact smooth_sub trivial trivial

theorem fastRegular (U : Name → Nat → ℝ → ℝ) : Regular exS U exq exP' 0 1 fast where
  rates := fun t _ => exRates U _
  start := (fastEnds U (by simp [fast]) (by simp [fast])).start
  stop := (fastEnds U (by simp [fast]; norm_num) (by simp [fast]; norm_num)).stop
  ham := by
    intro t _ u _
    rw [exh]
    simp only [diff]
    refine ⟨⟨⟨?_, ⟨?_, ?_⟩, ?_, ?_⟩, ⟨?_, ?_⟩, ?_, ?_⟩, ⟨?_, ?_⟩, ?_, ?_⟩ <;> (try split) <;> trivial
  defined := by
    intro t _ d hd
    rw [exP'_states, exh] at hd
    simp only [List.mem_cons, List.not_mem_nil, or_false] at hd
    rcases hd with rfl | rfl | rfl | rfl
    · exact ⟨trivial, trivial⟩
    · exact ⟨trivial, trivial⟩
    · exact ⟨⟨trivial, ⟨⟨trivial, ⟨trivial, trivial⟩, trivial, trivial⟩, ⟨trivial, trivial⟩, trivial, trivial⟩,
        ⟨trivial, trivial⟩, trivial, trivial⟩, trivial⟩
    · exact ⟨⟨trivial, ⟨⟨trivial, ⟨trivial, trivial⟩, trivial, trivial⟩, ⟨trivial, trivial⟩, trivial, trivial⟩,
        ⟨trivial, trivial⟩, trivial, trivial⟩, trivial⟩
  law := by
    intro t _ opt ho e he
    rw [exP'_rest.2.1, List.mem_singleton] at ho
    subst ho
    rw [List.mem_singleton] at he
    subst he
    refine ⟨⟨trivial, trivial⟩, trivial, ?_⟩
    simp [eval]
  controls := by
    intro t ht u hu
    rw [exP'_rest.1, List.mem_singleton] at hu
    subst hu
    exact (fast_moves "u" (by decide) (by decide) (by decide) t ht).differentiableAt
  form := by
    intro om ho
    rw [(by decide +kernel : exP'.omega = none)] at ho
    cases ho

noncomputable def fastRow (τ : ℝ) : List ℝ := [101 / 100 * τ, τ, -(101 / 50), 0]

theorem fastRead (U : Name → Nat → ℝ → ℝ) : Reads U exP' 0 1 fastRow [1] [101 / 50, 0, -(101 / 50)] [0] fast := by
  have h1 : sts exP' = ["x", "t", "_lam_x", "_lam_t"] := by decide +kernel
  have h2 : exP'.parameters = ["_delta_t"] ∧ exP'.constraintParams = ["_nu_0_0", "_nu_0_1", "_nu_f_0"] ∧
    exP'.constants = ["eps"] := by decide +kernel
  obtain ⟨r1, r2, r3, r4⟩ := exP'_rest
  refine ⟨?_, ?_, ?_, ?_, ?_, ?_⟩
  · intro t
    rw [h1]
    simp [fast, fastRow]
  · intro t _ u hu
    obtain ⟨opt, ho, rfl⟩ := computeU_some (σ := fast t) (by rw [h1]; simp [fast, fastRow]) (by rw [h2.1]; simp [fast])
      (by rw [h2.2.2]; simp [fast]) hu
    rw [r2, List.mem_singleton] at ho
    subst ho
    rw [r1]
    simp [fast, eval]
    norm_num
  · intro t
    rw [h2.1]
    simp [fast]
  · intro t
    rw [h2.2.1]
    simp [fast]
  · intro t
    rw [h2.2.2]
    simp [fast]
  · intro s n1 n2 n3 t t'
    rw [h1] at n1
    rw [r4] at n3
    simp only [List.mem_cons, not_or] at n1
    exact fast_const s n1.1 n1.2.1 n3 t t'

theorem fastNum (U : Name → Nat → ℝ → ℝ) : NumNear U exP' (1 / 40) 0 1 fastRow [1] [101 / 50, 0, -(101 / 50)] [0] := by
  refine numNear_of_nearly (fastRead U) (by norm_num) exP'_rest.2.2.1 (fastSolves U) ?_ ?_
  · intro t _
    refine ok_of ?_
    rfl
  · refine ok_of ?_
    rfl

/-- With the tolerance 1/40 the line is accepted and returned as an extremal up to 1/40; it is not returned as an exact one, since
it misses the terminal condition. -/
example (U : Name → Nat → ℝ → ℝ) (O : TrigOps ℝ) (hO : O.sin = Real.sin) :
    ∃ s', invIndirect exS O trapezoids (real U) exO exP { exSol with y := .rows 4 (exGrid.map fastRow) } = .ok s' ∧
      s'.y = .rows 1 [[101 / 100 * 0], [101 / 100 * (1 / 2)], [101 / 100 * 1]] ∧
      ∃ B x lam ν₀ ν₁, NearExtremal (userOcp U exQ B exP) (1 / 40) 0 0 1 x lam ν₀ ν₁ ∧ Returned exQ exP x lam s' ∧
        ¬ Extremal (userOcp U exQ B exP) 0 1 x lam ν₀ ν₁ := by
  obtain ⟨s', hs'⟩ : ∃ s', invIndirect exS O trapezoids (real U) exO exP { exSol with y := .rows 4 (exGrid.map fastRow) } = .ok s' := by
    refine ok_of ?_
    rfl
  have hfields : s'.t = [0, 1 / 2, 1] ∧ s'.y = .rows 1 [[101 / 100 * 0], [101 / 100 * (1 / 2)], [101 / 100 * 1]] := by
    have : invIndirect exS O trapezoids (real U) exO exP { exSol with y := .rows 4 (exGrid.map fastRow) } = .ok s' := hs'
    cases this
    exact ⟨rfl, rfl⟩
  obtain ⟨f1, f2⟩ := hfields
  obtain ⟨q, B, hq, hB, h⟩ := C74_converged_partial (luSound_cramer exS rfl) exP_stated (o := exO) rfl (by decide)
    (fun _ => exS_sound) exP'_ok
  rw [exq_ok] at hq
  cases hq
  obtain ⟨t₀, c, x, lam, ν₀, ν₁, hc, hext, ht, hret, -, -⟩ := h U exQ (exQ_completes U) O trapezoids hO (1 / 40) 0 (by norm_num)
    (by simp [exO]) 0 1 _ _ _ _ _ (by norm_num)
    (fastNum U) (fastRead U) (fastRegular U) (by simp) { exSol with y := .rows 4 (exGrid.map fastRow) } s' (by simp [exSol, exGrid])
    (by simp only [exSol, exGrid]; intro τ hτ; simp at hτ; rcases hτ with rfl | rfl | rfl <;> norm_num) rfl rfl rfl hs'
  have ht0 : t₀ = 0 ∧ c = 1 := by
    rw [f1] at ht
    simp [exSol, exGrid] at ht
    obtain ⟨rfl, -, h2⟩ := ht
    exact ⟨rfl, by linarith⟩
  obtain ⟨rfl, rfl⟩ := ht0
  refine ⟨s', hs', f2, B, x, lam, ν₀, ν₁, by simpa using hext, hret, ?_⟩
  intro he
  have h1 := hret.states
  rw [f1, f2] at h1
  have hx : x 1 "x" = 101 / 100 := by
    simp [exP] at h1
    rw [← h1.2.2]
  have := he.terminal (fun σ => eval (real U) (exQ σ) (sym "x" - 1)) (by
    simp [userOcp, exP, Con.twoSided])
  simp [eval, Opt.exQ, hx] at this
  norm_num at this

end Beluga.E2E
