import Verif.EndToEnd.Props
import Verif.Extremal.DefectPipe

/-! # A solution with an integration error is returned as an extremal up to that error (C81) -/

namespace Beluga.E2E

open Beluga.Sym Beluga.Sym.Expr Beluga.Num Beluga.Map Beluga.Opt Beluga.Rep

/-! ### Specification -/

/-- The derivative of the array of states differs from `deriv_func` by at most `δ` in every entry.  Equations whose right hand
sides depend on parameters and constants only are integrated without error, as they are by every Runge-Kutta or collocation
scheme. -/
def Strays (U : Name → Nat → ℝ → ℝ) (p : Prob) (δ a b : ℝ) (y : ℝ → List ℝ) (pr k : List ℝ) : Prop :=
  ∀ t ∈ Set.Icc a b, ∃ v, derivFunc (real U) p (y t) pr k = .ok v ∧ ∀ i (h : i < v.length), ∃ w,
    HasDerivAt (fun τ => (y τ).getD i 0) w t ∧ |w - v[i]| ≤ δ ∧
      ((∀ d ∈ p.states[i]?, Steady U p d.eom) → w = v[i])

/-- A numerical solution of the compiled boundary value problem: the differential equations hold up to `δ` and all entries of
`bc_func` are at most `ε`. -/
structure NumDefect (U : Name → Nat → ℝ → ℝ) (p : Prob) (ε δ a b : ℝ) (y : ℝ → List ℝ) (pr pc k : List ℝ) : Prop where
  rates : Strays U p δ a b y pr k
  boundary : ∃ r, bcFunc (real U) p (y a) [] (y b) [] pr pc k = .ok r ∧ ∀ x ∈ r, |x| ≤ ε

/-! ### Lemmas -/

section
variable {U : Name → Nat → ℝ → ℝ} {p : Prob} {a b : ℝ} {y : ℝ → List ℝ} {pr pc k : List ℝ} {ρ : ℝ → Env}

/-- A numerical solution of the compiled boundary value problem solves the symbolic one up to the same tolerances. -/
theorem NumDefect.solves {ε δ : ℝ} (hab : a ≤ b) (h : NumDefect U p ε δ a b y pr pc k) (hr : Reads U p a b y pr pc k ρ)
    (hq : p.quads = []) (hlaw : p.controls = [] ∨ p.controlLaw ≠ []) : DefectSolves U p ε δ a b ρ := by
  have key : ∀ t ∈ Set.Icc a b, ∀ d ∈ p.states, ∃ w, HasDerivAt (fun τ => ρ τ d.name) w t ∧
      |w - eval (real U) (ρ t) d.eom| ≤ δ ∧
      (Steady U p d.eom → w = eval (real U) (ρ t) d.eom) := by
    intro t ht d hd
    obtain ⟨v, h1, h2⟩ := h.rates t ht
    have hv := atPoint_val hr ht h1
    obtain ⟨i, hi, rfl⟩ := List.mem_iff_getElem.1 hd
    have hi' : i < v.length := by rw [hv]; simpa using hi
    obtain ⟨w, h3, h4, h5⟩ := h2 i hi'
    have e1 : (fun τ => (y τ).getD i 0) = fun τ => ρ τ p.states[i].name := by
      funext τ
      rw [← hr.states τ, sts]
      simp [hi]
    have e2 : v[i] = eval (real U) (ρ t) p.states[i].eom := by
      simp only [hv, List.getElem_map]
    rw [e1] at h3
    rw [e2] at h4 h5
    refine ⟨w, h3, h4, fun hh => h5 fun d hd => ?_⟩
    rw [List.getElem?_eq_getElem hi] at hd
    cases hd
    exact hh
  -- the rest does not depend on the rates
  have hlaw' : p.controls ≠ [] → ∀ t ∈ Set.Icc a b, ∃ opt ∈ p.controlLaw,
      List.Forall₂ (fun u e => ρ t u = eval (real U) (ρ t) e) p.controls opt := by
    intro hc t ht
    have hl := hlaw.resolve_left hc
    obtain ⟨v, h1, -⟩ := h.rates t ht
    rw [derivFunc, atPoint] at h1
    obtain ⟨ou, h2, -⟩ := bind_ok h1
    cases ou with
    | none => exact absurd (computeU_none h2) hl
    | some u =>
      obtain ⟨opt, h3, h4⟩ := computeU_some (hr.states t) (hr.parameters t) (hr.constants t) h2
      refine ⟨opt, h3, ?_⟩
      have h5 := hr.controls t ht u h2
      rw [h4] at h5
      rw [← List.forall₂_map_left_iff (f := ρ t) (R := fun x e => x = eval (real U) (ρ t) e), h5]
      rw [List.forall₂_map_left_iff]
      exact List.forall₂_same.2 fun _ _ => rfl
  obtain ⟨r, h1, h2⟩ := h.boundary
  rw [bcFunc] at h1
  obtain ⟨v, h3, h1⟩ := bind_ok h1
  obtain ⟨w, h4, h1⟩ := bind_ok h1
  cases h1
  refine ⟨?_, ?_, ?_, hlaw', ?_, ?_⟩
  · intro t ht d hd
    obtain ⟨w, k1, k2, -⟩ := key t ht d hd
    exact ⟨w, k1, by rwa [one_mul]⟩
  · intro t ht d hd hst
    obtain ⟨w, k1, -, k3⟩ := key t ht d hd
    rwa [k3 hst] at k1
  · intro s h1 _ h3 h4 t ht
    have : (fun τ => ρ τ s) = fun _ => ρ t s := by
      funext τ
      exact hr.others s h1 h3 h4 τ t
    rw [this]
    exact hasDerivAt_const _ _
  · have hv := bcEnd_val hr hq ⟨le_refl _, hab⟩ h3
    intro c hc
    exact h2 _ (List.mem_append_left _ (by rw [hv]; exact List.mem_map_of_mem hc))
  · have hw := bcEnd_val hr hq ⟨hab, le_refl _⟩ h4
    intro c hc
    exact h2 _ (List.mem_append_right _ (by rw [hw]; exact List.mem_map_of_mem hc))

/-- A solution of the symbolic boundary value problem up to tolerances is one of the compiled problem, if that can be
evaluated. -/
theorem numDefect_of_solves {ε δ : ℝ} (hδ : 0 ≤ δ) (hr : Reads U p a b y pr pc k ρ) (hab : a ≤ b) (hq : p.quads = [])
    (hs : DefectSolves U p ε δ a b ρ) (hd : ∀ t ∈ Set.Icc a b, ∃ v, derivFunc (real U) p (y t) pr k = .ok v)
    (hb : ∃ r, bcFunc (real U) p (y a) [] (y b) [] pr pc k = .ok r) : NumDefect U p ε δ a b y pr pc k where
  rates := by
    intro t ht
    obtain ⟨v, h1⟩ := hd t ht
    have hv := atPoint_val hr ht h1
    refine ⟨v, h1, ?_⟩
    intro i hi
    have hi' : i < p.states.length := by rw [hv] at hi; simpa using hi
    have e1 : (fun τ => (y τ).getD i 0) = fun τ => ρ τ p.states[i].name := by
      funext τ
      rw [← hr.states τ, sts]
      simp [hi']
    have e2 : v[i] = eval (real U) (ρ t) p.states[i].eom := by
      simp only [hv, List.getElem_map]
    rw [e1, e2]
    by_cases hst : Steady U p p.states[i].eom
    · exact ⟨_, hs.steady t ht p.states[i] (List.getElem_mem hi') hst, by simpa using hδ, fun _ => rfl⟩
    · obtain ⟨w, h3, h4⟩ := hs.follows t ht p.states[i] (List.getElem_mem hi')
      rw [one_mul] at h4
      refine ⟨w, h3, h4, fun hh => absurd (hh _ ?_) hst⟩
      rw [List.getElem?_eq_getElem hi']
      rfl
  boundary := by
    obtain ⟨r, h1⟩ := hb
    refine ⟨r, h1, ?_⟩
    rw [bcFunc] at h1
    obtain ⟨v, h3, h1⟩ := bind_ok h1
    obtain ⟨w, h4, h1⟩ := bind_ok h1
    cases h1
    intro x hx
    rcases List.mem_append.1 hx with hx | hx
    · rw [bcEnd_val hr hq ⟨le_refl _, hab⟩ h3] at hx
      obtain ⟨c, hc, rfl⟩ := List.mem_map.1 hx
      exact hs.initial c hc
    · rw [bcEnd_val hr hq ⟨hab, le_refl _⟩ h4] at hx
      obtain ⟨c, hc, rfl⟩ := List.mem_map.1 hx
      exact hs.terminal c hc

/-- Without an integration error these are the solutions up to a tolerance. -/
theorem NumDefect.near {ε : ℝ} (h : NumDefect U p ε 0 a b y pr pc k) : NumNear U p ε a b y pr pc k := by
  refine ⟨fun t ht => ?_, h.boundary⟩
  obtain ⟨v, h1, h2⟩ := h.rates t ht
  refine ⟨v, h1, fun i hi => ?_⟩
  obtain ⟨w, h3, h4, -⟩ := h2 i hi
  rwa [sub_eq_zero.1 (abs_nonpos_iff.1 h4)] at h3

theorem NumNear.defect {ε δ : ℝ} (hδ : 0 ≤ δ) (h : NumNear U p ε a b y pr pc k) : NumDefect U p ε δ a b y pr pc k := by
  refine ⟨fun t ht => ?_, h.boundary⟩
  obtain ⟨v, h1, h2⟩ := h.rates t ht
  exact ⟨v, h1, fun i hi => ⟨_, h2 i hi, by simpa using hδ, fun _ => rfl⟩⟩

end

/-! ### Property -/

/-- A numerical solution, whose derivative differs from the compiled rates by at most `δ` and whose boundary conditions hold up to
`ε`, is returned as samples of a curve that satisfies the first-order necessary conditions of the stated problem up to such
errors: the equations of motion and the adjoint equations up to `δ` in the time of the user, the boundary and transversality
conditions up to `ε`; with the algebraic control law the controls are stationary exactly, with the differential one up to
`η = ε + δ N (b - a)`; the Hamiltonian is the negative of the costate of time up to `ε + (δ M + η V) (b - a)`.

Missing from the full property: that the integrators keep the defect
below `δ` (they control an estimate of it); everything that is missing from `C73_returned_partial`. -/
theorem C81_defect_partial {S : Sympy} (hL : LuSound S) {o : Opts} {p p' : Prob} (hp : Stated p)
    (hm : o.momentumShift = true) (hd : o.method ≠ .other) (hS : o.controlMethod = .algebraic → SolveSound S)
    (h : indirect S o p = .ok p') :
    ∃ q B, primal S p = .ok q ∧ Barriers B ∧
      ∀ U Q, Completes U p Q → ∀ (O : TrigOps ℝ) rule, O.sin = Real.sin →
      ∀ a b ε η δ M N V, 0 ≤ ε → 0 ≤ δ → 0 ≤ N → η = (if o.controlMethod = .algebraic then 0 else ε + δ * N * (b - a)) →
      ∀ y pr pc k ρ, a ≤ b → NumDefect U p' ε δ a b y pr pc k → Reads U p' a b y pr pc k ρ → Regular S U q p' a b ρ →
        Sized U q M N V a b ρ → (∀ x ∈ pr, 0 < x) →
      ∀ s s' : Sol ℝ, s.t ≠ [] → (∀ τ ∈ s.t, τ ∈ Set.Icc a b) → s.y = .rows p'.states.length (s.t.map y) → s.dyn = pr →
        s.const = k → invIndirect S O rule (real U) o p s = .ok s' →
      ∃ t₀ c x lam ν₀ ν₁, 0 < c ∧ c = (if o.normalizeTime then ρ a ("_delta_" ++ p.ind) else 1) ∧
        DefectExtremal (userOcp U Q B p) ε η (δ / c) ((δ * M + η * V) * (b - a)) t₀ (t₀ + c * (b - a)) x lam ν₀ ν₁ ∧
        s'.t = s.t.map (fun τ => t₀ + c * (τ - a)) ∧ Returned Q p x lam s' ∧ s'.const = k ∧
        s'.dualT.length = s'.t.length ∧
        (∀ tl ∈ s'.t.zip s'.dualT, |(userOcp U Q B p).ham (lam tl.1) (x tl.1) + tl.2| ≤ ε + (δ * M + η * V) * (b - a)) ∧
        (Rule rule → Shift rule → s'.cost = some (stated rule U p s'.t (fun i => Q (x (s'.t.getD i 0))) +
          penalised rule B U p s'.t fun i => Q (x (s'.t.getD i 0)))) ∧
        (o.controlMethod = .algebraic → Least S U q (userOcp U Q B p) t₀ (t₀ + c * (b - a)) x lam) ∧ Drawn ρ a t₀ c x lam ν₀ ν₁ := by
  obtain ⟨q, p3, f, f2, f3, ctl, hprimal, hf, hctl, hsteps, hquads, hpar, hback⟩ := read_back hL hp hm hd h
  obtain ⟨B, hB, hocp⟩ := hf.ocp
  refine ⟨q, B, hprimal, hB, ?_⟩
  intro U Q hQ O rule hO a b ε η δ M N V hε hδ hN hη y pr pc k ρ hab hnum hread hreg hz hpr s s' hne hgrid hy hdyn hconst hinv
  have hcl := hf.clean hp
  obtain ⟨c, hc⟩ : ∃ c, c = if o.normalizeTime then ρ a ("_delta_" ++ p.ind) else 1 := ⟨_, rfl⟩
  obtain ⟨hpos, hlaw, hback⟩ := hback U Q B hQ (hocp U Q hQ) O rule hO a b y pr pc k ρ hread hpr (by
    intro τ hτ
    obtain ⟨w, hw, -⟩ := hnum.rates τ hτ
    rw [derivFunc, atPoint] at hw
    obtain ⟨ou, hou, -⟩ := bind_ok hw
    exact ⟨ou, hou⟩) s s' hne hgrid hy hdyn hconst hinv c hc
  have hη0 : 0 ≤ η := by
    rw [hη]
    split
    · exact le_refl _
    · have := mul_nonneg (mul_nonneg hδ hN) (sub_nonneg.2 hab)
      linarith
  have hsol := hnum.solves hab hread hquads hlaw
  obtain ⟨hdual, hfixed, hfree⟩ := hf.dualDefect hL hp hctl hd hS hsteps hpar hδ hη hsol hreg hz hc hpos
  have hext := hf.extremalDefect hp (hocp U Q hQ) hδ hη0 hab hdual hfixed hfree hreg.rates hreg.start hreg.stop hz
  obtain ⟨ht', hret, hk, hdT, hcost, hleast⟩ := hback hdual.time_line
  refine ⟨ρ a p.ind, c, _, _, _, _, hpos, hc, hext, ht', hret, hk, by rw [hdT, List.length_map], ?_, hcost, hleast,
    fun _ => rfl, fun _ _ => rfl, fun _ => rfl, fun _ => rfl⟩
  have hinv : ∀ τ, a + (ρ a p.ind + c * (τ - a) - ρ a p.ind) / c = τ := by
    intro τ
    rw [add_sub_cancel_left, mul_div_cancel_left₀ _ hpos.ne']
    ring
  rw [hdT, ht', List.map_map, List.zip_map', List.forall_mem_map]
  intro τ hτ
  have he := hdual.energy hcl.toNamed hδ hη0 hf.states hfree hreg.rates hz p.constants τ (hgrid τ hτ)
  rw [hocp U Q hQ] at he
  simp only [Function.comp_apply]
  rw [hinv]
  refine he.trans (add_le_add_right (mul_le_mul_of_nonneg_left (by linarith [(hgrid τ hτ).1]) ?_) _)
  obtain ⟨v, -, hv⟩ := hdual.ham_rate hcl.toNamed hδ hη0 hf.states hfree hreg.rates hz τ (hgrid τ hτ)
  exact (abs_nonneg v).trans hv

/-! ### A concrete case

For the problem of `C64_extremal_partial`, a curve that deviates from the straight line by at most 1/400 between its ends: no
boundary condition is missed, but the differential equation is, by up to 1/100. -/

noncomputable def bent (τ : ℝ) (s : Name) : ℝ := if s = "x" then τ + (τ - τ * τ) / 100 else exCurve τ s

noncomputable def bentRow (τ : ℝ) : List ℝ := [τ + (τ - τ * τ) / 100, τ, -2, 0]

theorem bent_x (t : ℝ) : HasDerivAt (fun τ => bent τ "x") (1 + (1 - 2 * t) / 100) t := by
  have : (fun τ => bent τ "x") = fun τ => τ + (τ - τ * τ) / 100 := funext fun τ => by simp [bent]
  rw [this]
  refine ((hasDerivAt_id' t).add (((hasDerivAt_id' t).sub ((hasDerivAt_id' t).mul (hasDerivAt_id' t))).div_const 100)).congr_deriv ?_
  ring

theorem bent_of_ne {s : Name} (h : s ≠ "x") : (fun τ => bent τ s) = fun τ => exCurve τ s := funext fun τ => by simp [bent, h]

theorem exDefined (U : Name → Nat → ℝ → ℝ) (σ : Env) : ∀ d ∈ exP'.states, Defined (real U) σ d.eom := by
  intro d hd
  rw [exP'_states, exh] at hd
  simp only [List.mem_cons, List.not_mem_nil, or_false] at hd
  rcases hd with rfl | rfl | rfl | rfl
  · exact ⟨trivial, trivial⟩
  · exact ⟨trivial, trivial⟩
  · exact ⟨⟨trivial, ⟨⟨trivial, ⟨trivial, trivial⟩, trivial, trivial⟩, ⟨trivial, trivial⟩, trivial, trivial⟩,
      ⟨trivial, trivial⟩, trivial, trivial⟩, trivial⟩
  · exact ⟨⟨trivial, ⟨⟨trivial, ⟨trivial, trivial⟩, trivial, trivial⟩, ⟨trivial, trivial⟩, trivial, trivial⟩,
      ⟨trivial, trivial⟩, trivial, trivial⟩, trivial⟩

theorem bentSolves (U : Name → Nat → ℝ → ℝ) : DefectSolves U exP' 0 (1 / 100) 0 1 bent where
  follows := by
    intro t ht d hd
    rw [exP'_states, exh] at hd
    simp only [List.mem_cons, List.not_mem_nil, or_false] at hd
    rcases hd with rfl | rfl | rfl | rfl
    · refine ⟨_, bent_x t, ?_⟩
      simp [eval, bent, exCurve, abs_le]
      constructor <;> linarith [ht.1, ht.2]
    · refine ⟨1, by rw [bent_of_ne (by decide)]; exact exCurve_id "t" (by simp) t ht, ?_⟩
      simp [eval, bent, exCurve]
    · refine ⟨0, by rw [bent_of_ne (by decide)]; exact exCurve_const "_lam_x" (by decide) (by decide) (by decide) t ht, ?_⟩
      simp [eval, diff]
    · refine ⟨0, by rw [bent_of_ne (by decide)]; exact exCurve_const "_lam_t" (by decide) (by decide) (by decide) t ht, ?_⟩
      simp [eval, diff]
  steady := by
    intro t ht d hd hst
    have hpc : exP'.parameters ++ exP'.constants = ["_delta_t", "eps"] := by decide +kernel
    rw [exP'_states, exh] at hd
    simp only [List.mem_cons, List.not_mem_nil, or_false] at hd
    rcases hd with rfl | rfl | rfl | rfl
    · have := hst (fun _ => 1) (fun s => if s = "u" then 0 else 1) (by
        rw [hpc]
        intro s hs
        simp only [List.mem_cons, List.not_mem_nil, or_false] at hs
        rcases hs with rfl | rfl <;> simp) (fun d hd => ⟨exDefined U _ d hd, exDefined U _ d hd⟩)
      simp [eval] at this
    · have := exCurve_id "t" (by simp) t ht
      rw [bent_of_ne (by decide)]
      simpa [eval, bent, exCurve] using this
    · rw [bent_of_ne (by decide)]
      have := exCurve_const "_lam_x" (by decide) (by decide) (by decide) t ht
      simpa [eval, diff, exCurve] using this
    · rw [bent_of_ne (by decide)]
      have := exCurve_const "_lam_t" (by decide) (by decide) (by decide) t ht
      simpa [eval, diff, exCurve] using this
  fixed := by
    intro s h1 h2 h3 h4
    rw [exP'_states] at h1
    rw [exP'_rest.2.2.2] at h4
    simp only [List.map_cons, List.mem_cons, not_or] at h1
    intro t ht
    rw [bent_of_ne h1.1]
    exact exCurve_const s h1.1 h1.2.1 h4 t ht
  law := by
    intro _ t _
    rw [exP'_rest.1, exP'_rest.2.1]
    refine ⟨_, List.mem_singleton_self _, ?_⟩
    simp [eval, bent, exCurve]
  initial := by
    intro c hc
    have : c.expr ∈ exP'.initial.map Con.expr := List.mem_map.2 ⟨c, hc, rfl⟩
    rw [exP'_initial, exphi0] at this
    simp only [List.mem_cons, List.not_mem_nil, or_false] at this
    rcases this with h | h | h | h <;> rw [h] <;> simp [eval, diff, bent, exCurve]
  terminal := by
    intro c hc
    have : c.expr ∈ exP'.terminal.map Con.expr := List.mem_map.2 ⟨c, hc, rfl⟩
    rw [exP'_terminal, exphif, exh] at this
    simp only [List.mem_cons, List.not_mem_nil, or_false] at this
    rcases this with h | h | h | h <;> rw [h] <;> simp [eval, diff, bent, exCurve, utmTerm]; norm_num

theorem bentRegular (U : Name → Nat → ℝ → ℝ) : Regular exS U exq exP' 0 1 bent where
  rates := fun t _ => exRates U _
  start := (fastEnds U (by norm_num [bent]) (by norm_num [bent])).start
  stop := (fastEnds U (by norm_num [bent]) (by norm_num [bent])).stop
  ham := by
    intro t _ u _
    rw [exh]
    simp only [diff]
    refine ⟨⟨⟨?_, ⟨?_, ?_⟩, ?_, ?_⟩, ⟨?_, ?_⟩, ?_, ?_⟩, ⟨?_, ?_⟩, ?_, ?_⟩ <;> (try split) <;> trivial
  defined := fun t _ => exDefined U (bent t)
  law := by
    intro t _ opt ho e he
    rw [exP'_rest.2.1, List.mem_singleton] at ho
    subst ho
    rw [List.mem_singleton] at he
    subst he
    refine ⟨⟨trivial, trivial⟩, trivial, ?_⟩
    simp [eval]
  controls := by
    intro t ht u hu
    rw [exP'_rest.1, List.mem_singleton] at hu
    subst hu
    rw [bent_of_ne (by decide)]
    exact (exCurve_const "u" (by decide) (by decide) (by decide) t ht).differentiableAt
  form := by
    intro om ho
    rw [(by decide +kernel : exP'.omega = none)] at ho
    cases ho

theorem bentRead (U : Name → Nat → ℝ → ℝ) : Reads U exP' 0 1 bentRow [1] [2, 0, -2] [0] bent := by
  have h1 : sts exP' = ["x", "t", "_lam_x", "_lam_t"] := by decide +kernel
  have h2 : exP'.parameters = ["_delta_t"] ∧ exP'.constraintParams = ["_nu_0_0", "_nu_0_1", "_nu_f_0"] ∧
    exP'.constants = ["eps"] := by decide +kernel
  obtain ⟨r1, r2, r3, r4⟩ := exP'_rest
  refine ⟨?_, ?_, ?_, ?_, ?_, ?_⟩
  · intro t
    rw [h1]
    simp [bent, exCurve, bentRow]
  · intro t _ u hu
    obtain ⟨opt, ho, rfl⟩ := computeU_some (σ := bent t) (by rw [h1]; simp [bent, exCurve, bentRow]) (by rw [h2.1]; simp [bent, exCurve])
      (by rw [h2.2.2]; simp [bent, exCurve]) hu
    rw [r2, List.mem_singleton] at ho
    subst ho
    rw [r1]
    simp [bent, exCurve, eval]
  · intro t
    rw [h2.1]
    simp [bent, exCurve]
  · intro t
    rw [h2.2.1]
    simp [bent, exCurve]
  · intro t
    rw [h2.2.2]
    simp [bent, exCurve]
  · intro s n1 n2 n3 t t'
    rw [h1] at n1
    rw [r4] at n3
    simp only [List.mem_cons, not_or] at n1
    simp [bent, exCurve, n1.1, n1.2.1, n3]

theorem bentNum (U : Name → Nat → ℝ → ℝ) : NumDefect U exP' 0 (1 / 100) 0 1 bentRow [1] [2, 0, -2] [0] := by
  refine numDefect_of_solves (by norm_num) (bentRead U) (by norm_num) exP'_rest.2.2.1 (bentSolves U) ?_ ?_
  · intro t _
    refine ok_of ?_
    rfl
  · refine ok_of ?_
    rfl

theorem bentSized (U : Name → Nat → ℝ → ℝ) : Sized U exq 2 3 0 0 1 bent where
  ham := by
    intro t _
    rw [exh, exq_states, exq_controls]
    simp [eval, diff, bent, exCurve]
    norm_num
  second := by
    intro t _ u hu
    rw [exq_controls, List.mem_singleton] at hu
    subst hu
    rw [exh, exq_states, exq_controls]
    simp [eval, diff, lamName]
    norm_num
  speed := by
    intro t ht
    rw [exq_controls]
    simp only [List.map_cons, List.map_nil, List.sum_cons, List.sum_nil, add_zero]
    rw [bent_of_ne (by decide), (exCurve_const "u" (by decide) (by decide) (by decide) t ht).deriv, abs_zero]

/-- The curve is returned as an extremal up to 1/100 in the differential equations and up to 1/50 in the condition for the
initial time; the other conditions hold exactly.  It is not an extremal up to errors in the boundary conditions only. -/
example (U : Name → Nat → ℝ → ℝ) (O : TrigOps ℝ) (hO : O.sin = Real.sin) :
    ∃ s', invIndirect exS O trapezoids (real U) exO exP { exSol with y := .rows 4 (exGrid.map bentRow) } = .ok s' ∧
      ∃ B x lam ν₀ ν₁, DefectExtremal (userOcp U exQ B exP) 0 0 (1 / 100) (1 / 50) 0 1 x lam ν₀ ν₁ ∧ Returned exQ exP x lam s' ∧
        s'.y = .rows 1 [[0], [201 / 400], [1]] := by
  obtain ⟨s', hs'⟩ : ∃ s', invIndirect exS O trapezoids (real U) exO exP { exSol with y := .rows 4 (exGrid.map bentRow) } = .ok s' := by
    refine ok_of ?_
    rfl
  have hfields : s'.t = [0, 1 / 2, 1] ∧ s'.y = .rows 1 (exGrid.map fun τ => [τ + (τ - τ * τ) / 100]) := by
    have : invIndirect exS O trapezoids (real U) exO exP { exSol with y := .rows 4 (exGrid.map bentRow) } = .ok s' := hs'
    cases this
    exact ⟨rfl, rfl⟩
  obtain ⟨f1, f2⟩ := hfields
  obtain ⟨q, B, hq, hB, h⟩ := C81_defect_partial (luSound_cramer exS rfl) exP_stated (o := exO) rfl (by decide)
    (fun _ => exS_sound) exP'_ok
  rw [exq_ok] at hq
  cases hq
  obtain ⟨t₀, c, x, lam, ν₀, ν₁, hc, -, hext, ht, hret, -⟩ := h U exQ (exQ_completes U) O trapezoids hO 0 1 0 0 (1 / 100) 2 3 0
    (le_refl _) (by norm_num) (by norm_num) (by simp [exO]) _ _ _ _ _ (by norm_num)
    (bentNum U) (bentRead U) (bentRegular U) (bentSized U) (by simp) { exSol with y := .rows 4 (exGrid.map bentRow) } s'
    (by simp [exSol, exGrid])
    (by simp only [exSol, exGrid]; intro τ hτ; simp at hτ; rcases hτ with rfl | rfl | rfl <;> norm_num) rfl rfl rfl hs'
  have ht0 : t₀ = 0 ∧ c = 1 := by
    rw [f1] at ht
    simp [exSol, exGrid] at ht
    obtain ⟨rfl, -, h2⟩ := ht
    exact ⟨rfl, by linarith⟩
  obtain ⟨rfl, rfl⟩ := ht0
  refine ⟨s', hs', B, x, lam, ν₀, ν₁, ?_, hret, ?_⟩
  · have e : ((1 / 100 : ℝ) * 2 + 0 * 0) * (1 - 0) = 1 / 50 := by norm_num
    rw [e] at hext
    simpa using hext
  · rw [f2]
    norm_num [exGrid]

/-- No tolerance for the boundary conditions makes up for the error of the rates. -/
example (U : Name → Nat → ℝ → ℝ) (B : ℝ → ℝ → ℝ → ℝ → ℝ) (ε η : ℝ) (ν₀ ν₁ : Nat → ℝ) :
    ¬ NearExtremal (userOcp U exQ B exP) ε η 0 1 bent (fun s n => bent s (lamName n)) ν₀ ν₁ := by
  intro h
  have h1 := h.motion ("x", fun σ => eval (real U) (exQ σ) (sym "u")) (by simp [userOcp, exP]) 0 (by norm_num)
  have h2 := h1.unique (bent_x 0)
  simp [eval, Opt.exQ, bent, exCurve] at h2

end Beluga.E2E
