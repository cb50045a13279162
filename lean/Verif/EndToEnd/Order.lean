import Verif.Extremal.Converse
import Verif.Reported.Props

/-!
# The order of declarations does not matter (C93)

The order in which states, controls, constants, quantities, switches and constraints are declared decides where they stand
in the arrays, which multiplier belongs to which constraint, and in which order substitutions are made.  It does not
decide what the solutions are, nor what the cost is.
-/

namespace Beluga.E2E

open Beluga.Sym Beluga.Sym.Expr Beluga.Num Beluga.Map Beluga.Opt Beluga.Rep

/-! ### Specification -/

/-- The same declarations in another order. -/
structure Reordered (p p2 : Prob) : Prop where
  ind : p2.ind = p.ind
  states : p.states.Perm p2.states
  controls : p.controls.Perm p2.controls
  constants : p.constants.Perm p2.constants
  quantities : p.quantities.Perm p2.quantities
  switches : p.switches.Perm p2.switches
  initial : p.initial.Perm p2.initial
  path : p.path.Perm p2.path
  terminal : p.terminal.Perm p2.terminal
  costs : p2.costInitial = p.costInitial ∧ p2.costPath = p.costPath ∧ p2.costTerminal = p.costTerminal
  parameters : p.parameters.Perm p2.parameters
  quads : p.quads.Perm p2.quads
  rest : p2.costates = p.costates ∧ p2.coparameters = p.coparameters ∧ p2.controlLaw = p.controlLaw

/-- The same problem with its parts in another order. -/
structure Ocp.Shuffled (O O2 : Ocp) : Prop where
  ind : O2.ind = O.ind
  rates : O.rates.Perm O2.rates
  controls : O.controls.Perm O2.controls
  fixed : O.fixed.Perm O2.fixed
  path : O2.path = O.path
  costs : O2.costInitial = O.costInitial ∧ O2.costTerminal = O.costTerminal
  initial : O.initial.Perm O2.initial
  terminal : O.terminal.Perm O2.terminal

/-! ### Lemmas -/

theorem Reordered.symm {p p2 : Prob} (h : Reordered p p2) : Reordered p2 p :=
  ⟨h.ind.symm, h.states.symm, h.controls.symm, h.constants.symm, h.quantities.symm, h.switches.symm, h.initial.symm, h.path.symm,
    h.terminal.symm, ⟨h.costs.1.symm, h.costs.2.1.symm, h.costs.2.2.symm⟩, h.parameters.symm, h.quads.symm,
    h.rest.1.symm, h.rest.2.1.symm, h.rest.2.2.symm⟩

theorem sum_zipIdx_cons (c : Env → ℝ) (l : List (Env → ℝ)) (ν : Nat → ℝ) (σ : Env) :
    (((c :: l).zipIdx).map fun d => ν d.2 * d.1 σ).sum = ν 0 * c σ + (l.zipIdx.map fun d => ν (d.2 + 1) * d.1 σ).sum := by
  rw [List.zipIdx_cons, List.map_cons, List.sum_cons]
  congr 2
  rw [zero_add, List.zipIdx_succ, List.map_map]
  rfl

/-- Multipliers for another order of the conditions. -/
theorem multipliers_perm {l l2 : List (Env → ℝ)} (h : l.Perm l2) : ∀ ν : Nat → ℝ, ∃ ν2 : Nat → ℝ, ∀ σ,
    (l2.zipIdx.map fun d => ν2 d.2 * d.1 σ).sum = (l.zipIdx.map fun d => ν d.2 * d.1 σ).sum := by
  induction h with
  | nil => exact fun ν => ⟨ν, fun _ => rfl⟩
  | cons c _ ih =>
    intro ν
    obtain ⟨ν2, h2⟩ := ih fun i => ν (i + 1)
    refine ⟨fun i => if i = 0 then ν 0 else ν2 (i - 1), fun σ => ?_⟩
    rw [sum_zipIdx_cons c _ ν, ← h2 σ]
    refine (sum_zipIdx_cons c _ (fun i => if i = 0 then ν 0 else ν2 (i - 1)) σ).trans ?_
    simp
  | swap c d l =>
    intro ν
    refine ⟨fun i => if i = 0 then ν 1 else if i = 1 then ν 0 else ν i, fun σ => ?_⟩
    have two : ∀ (f g : Env → ℝ) (μ : Nat → ℝ), (((f :: g :: l).zipIdx).map fun d => μ d.2 * d.1 σ).sum =
        μ 0 * f σ + (μ 1 * g σ + (l.zipIdx.map fun d => μ (d.2 + 1 + 1) * d.1 σ).sum) := by
      intro f g μ
      rw [sum_zipIdx_cons]
      exact congrArg _ (sum_zipIdx_cons g l (fun i => μ (i + 1)) σ)
    refine (two c d fun i => if i = 0 then ν 1 else if i = 1 then ν 0 else ν i).trans ?_
    rw [two d c ν]
    simp
    ring
  | trans _ _ ih1 ih2 =>
    intro ν
    obtain ⟨ν2, h2⟩ := ih1 ν
    obtain ⟨ν3, h3⟩ := ih2 ν2
    exact ⟨ν3, fun σ => (h3 σ).trans (h2 σ)⟩

theorem Ocp.Shuffled.ham {O O2 : Ocp} (h : Ocp.Shuffled O O2) (lam : Name → ℝ) : O2.ham lam = O.ham lam := by
  funext σ
  rw [Ocp.ham, Ocp.ham, h.path]
  congr 1
  exact ((h.rates.map _).sum_eq).symm

theorem Ocp.Shuffled.extremal {O O2 : Ocp} (h : Ocp.Shuffled O O2) {a b : ℝ} {x : ℝ → Env} {lam : ℝ → Name → ℝ} {ν₀ ν₁ : Nat → ℝ}
    (he : Extremal O a b x lam ν₀ ν₁) : ∃ ν₀' ν₁', Extremal O2 a b x lam ν₀' ν₁' := by
  obtain ⟨n0, h0⟩ := multipliers_perm h.initial ν₀
  obtain ⟨n1, h1⟩ := multipliers_perm h.terminal ν₁
  have l0 : lagrange O2.costInitial O2.initial n0 = lagrange O.costInitial O.initial ν₀ := by
    funext σ
    rw [lagrange, lagrange, h.costs.1, h0]
  have l1 : lagrange O2.costTerminal O2.terminal n1 = lagrange O.costTerminal O.terminal ν₁ := by
    funext σ
    rw [lagrange, lagrange, h.costs.2, h1]
  refine ⟨n0, n1, ?_⟩
  refine ⟨by rw [h.ind]; exact he.time, fun s hs => he.fixed s (h.fixed.mem_iff.2 hs), fun r hr => he.motion r (h.rates.mem_iff.2 hr),
    ?_, ?_, fun c hc => he.initial c (h.initial.mem_iff.2 hc), fun c hc => he.terminal c (h.terminal.mem_iff.2 hc), ?_, ?_, ?_, ?_⟩
  · intro r hr t ht
    rw [h.ham]
    exact he.adjoint r (h.rates.mem_iff.2 hr) t ht
  · intro u hu t ht
    rw [h.ham]
    exact he.stationary u (h.controls.mem_iff.2 hu) t ht
  · intro r hr
    rw [l0]
    exact he.start r (h.rates.mem_iff.2 hr)
  · intro r hr
    rw [l1]
    exact he.stop r (h.rates.mem_iff.2 hr)
  · rw [l0, h.ham, h.ind]
    exact he.start_time
  · rw [l1, h.ham, h.ind]
    exact he.stop_time

theorem epsControls_perm {l l2 : List Con} (h : l.Perm l2) : (epsControls l).Perm (epsControls l2) := h.filterMap _

theorem penalties_perm {l l2 : List Con} (h : l.Perm l2) (B : ℝ → ℝ → ℝ → ℝ → ℝ) (U : Name → Nat → ℝ → ℝ) (σ : Env) :
    penalties B U σ l2 = penalties B U σ l :=
  (((h.filter _).map _).sum_eq).symm

theorem Reordered.completes {p p2 : Prob} (h : Reordered p p2) {U : Name → Nat → ℝ → ℝ} {Q : Env → Env} (hQ : Completes U p Q) :
    Completes U p2 Q := by
  refine ⟨?_, fun σ d hd => hQ.quantities σ d (h.quantities.mem_iff.2 hd), fun σ d hd => hQ.switches σ d (h.switches.mem_iff.2 hd),
    fun σ c hc => hQ.trig σ c (h.path.mem_iff.2 hc)⟩
  intro σ s hs
  refine hQ.off σ s fun hm => hs ?_
  rw [definedNames] at hm ⊢
  simp only [List.mem_append] at hm ⊢
  rcases hm with (hm | hm) | hm
  · exact Or.inl (Or.inl ((h.quantities.map _).mem_iff.1 hm))
  · exact Or.inl (Or.inr ((h.switches.map _).mem_iff.1 hm))
  · exact Or.inr ((epsControls_perm h.path).mem_iff.1 hm)

theorem Reordered.ocp {p p2 : Prob} (h : Reordered p p2) (U : Name → Nat → ℝ → ℝ) (Q : Env → Env) (B : ℝ → ℝ → ℝ → ℝ → ℝ) :
    Ocp.Shuffled (userOcp U Q B p) (userOcp U Q B p2) := by
  have hc : (fun u => if u ∈ epsControls p.path then trigName u else u) =
      fun u => if u ∈ epsControls p2.path then trigName u else u := by
    funext u
    by_cases hu : u ∈ epsControls p.path
    · rw [if_pos hu, if_pos ((epsControls_perm h.path).mem_iff.1 hu)]
    · rw [if_neg hu, if_neg fun k => hu ((epsControls_perm h.path).mem_iff.2 k)]
  refine ⟨h.ind, h.states.map _, ?_, h.constants, ?_, ⟨?_, ?_⟩, (h.initial.filter _).map _, (h.terminal.filter _).map _⟩
  · change (p.controls.map _).Perm (p2.controls.map _)
    rw [hc]
    exact h.controls.map _
  · funext σ
    simp only [userOcp, h.costs, penalties_perm h.path]
  · funext σ
    simp only [userOcp, h.costs, penalties_perm h.initial]
  · funext σ
    simp only [userOcp, h.costs, penalties_perm h.terminal]

/-- What may be stated may be stated in any order. -/
theorem Reordered.stated {p p2 : Prob} (h : Reordered p p2) (hp : Stated p) : Stated p2 := by
  have hnames : (p.states.map Dyn.name ++ [p.ind] ++ p.controls ++ p.constants ++ p.quantities.map Quantity.name ++
      p.switches.map Switch.name).Perm (p2.states.map Dyn.name ++ [p2.ind] ++ p2.controls ++ p2.constants ++
      p2.quantities.map Quantity.name ++ p2.switches.map Switch.name) := by
    rw [h.ind]
    exact (((((h.states.map _).append_right _).append h.controls).append h.constants).append (h.quantities.map _)).append
      (h.switches.map _)
  have hplain : ∀ s, Plain p2 s ↔ Plain p s := fun s => by rw [Plain, Plain, h.ind]
  have hdefs : (p.quantities.map Quantity.name ++ p.switches.map Switch.name).Perm
      (p2.quantities.map Quantity.name ++ p2.switches.map Switch.name) := (h.quantities.map _).append (h.switches.map _)
  have hends : (p.initial ++ p.terminal).Perm (p2.initial ++ p2.terminal) := h.initial.append h.terminal
  have hall : (p.initial ++ p.path ++ p.terminal).Perm (p2.initial ++ p2.path ++ p2.terminal) :=
    (h.initial.append h.path).append h.terminal
  refine ⟨h.rest.1.trans hp.costates, h.rest.2.1.trans hp.coparameters, ?_, ?_, h.rest.2.2.trans hp.law, ?_, ?_,
    fun c hc => hp.inside c (h.path.mem_iff.2 hc), fun c hc => hp.ends c (hends.mem_iff.2 hc), ?_, ?_, (hnames.nodup_iff).1 hp.names,
    ?_, ?_, ?_, ?_⟩
  · have := h.parameters
    rw [hp.parameters] at this
    exact this.nil_eq.symm
  · have := h.quads
    rw [hp.quads] at this
    exact this.nil_eq.symm
  · obtain ⟨r, hr⟩ := hp.acyclic
    have hD : (defsQ p.quantities).Perm (defsQ p2.quantities) := h.quantities.map _
    exact ⟨r, fun d hd s hs hm => hr d (hD.mem_iff.2 hd) s hs ((hD.map _).mem_iff.2 hm)⟩
  · have k := hp.reg
    refine ⟨rfl, fun c hc => k.ends c (hends.mem_iff.2 hc), fun c hc => k.known c (h.path.mem_iff.2 hc), ?_, ?_,
      ((epsControls_perm h.path).nodup_iff).1 k.once, ?_⟩
    · intro c hc h2 hm
      obtain ⟨a, ha, e⟩ := k.act c (hall.mem_iff.2 hc) h2 hm
      exact ⟨a, h.constants.mem_iff.1 ha, e⟩
    · intro c hc he
      obtain ⟨u, a, lo, hi, e1, hu, hC, ea, el, eh, hf⟩ := k.eps c (h.path.mem_iff.2 hc) he
      exact ⟨u, a, lo, hi, e1, h.controls.mem_iff.1 hu, h.controls.mem_iff.1 hC, ea, el, eh,
        fun s hs hm => hf s hs (h.controls.mem_iff.2 hm)⟩
    · exact fun u hu hm => k.fresh u (h.controls.mem_iff.2 hu) (h.controls.mem_iff.2 hm)
  · exact fun c hc he e hm s hs hd => hp.bounds c (h.path.mem_iff.2 hc) he e hm s hs (hdefs.mem_iff.2 hd)
  · exact ⟨fun d hd s hs hm => hp.flat.1 d (h.quantities.mem_iff.2 hd) s hs ((h.switches.map _).mem_iff.2 hm),
      fun w hw e he s hs hm => hp.flat.2 w (h.switches.mem_iff.2 hw) e he s hs ((h.switches.map _).mem_iff.2 hm)⟩
  · intro u hu
    have := hp.trig u (h.controls.mem_iff.2 hu)
    exact ⟨(hplain _).2 this.1, fun hm => this.2 (hnames.mem_iff.2 hm)⟩
  · intro s hs
    refine (hplain s).2 (hp.plain s ?_)
    rw [h.ind] at hs
    exact ((((h.states.map _).append_right _).append h.controls).append h.constants).mem_iff.2 hs
  · intro e he s hs
    refine (hplain s).2 (hp.free e ?_ s hs)
    rw [allExprs, h.costs.1, h.costs.2.1, h.costs.2.2] at he
    rw [allExprs]
    exact ((((((h.states.map _).append (hall.flatMap_right _)).append_right _).append (h.quantities.map _)).append
      (h.switches.flatMap_right _)).mem_iff).2 he
  · rw [h.ind]
    exact hp.ind

theorem Barriers.unique {B B2 : ℝ → ℝ → ℝ → ℝ → ℝ} (h : Barriers B) (h2 : Barriers B2) : B2 = B := by
  funext a lo hi x
  rw [h.secant, h2.secant]

/-! ### Properties -/

/-- Solutions of the boundary value problem for one order of declarations are solutions for every other order: there is a
curve with the same states, controls, costates, time and constants that solves the other boundary value problem (only the
multipliers of the boundary conditions are numbered differently).

Assumed of the first curve: it is regular, and nothing but states, controls and generated symbols changes along it.  Of the
second, as in `C71_complete_partial`: it is regular, and sympy finds the stationary point (algebraic control) or the second
derivatives are nondegenerate (differential control).

Missing from the full property: the problems that are missing from `C64_extremal_partial`. -/
theorem C93_solutions_partial {S : Sympy} (hL : LuSound S) {o : Opts} {p p2 p' p2' : Prob} (hp : Stated p)
    (hr : Reordered p p2) (hm : o.momentumShift = true) (hd : o.method ≠ .other)
    (hS : o.controlMethod = .algebraic → SolveSound S)
    (h : indirect S o p = .ok p') (h2 : indirect S o p2 = .ok p2') :
    ∃ q q2, primal S p = .ok q ∧ primal S p2 = .ok q2 ∧
      ∀ U Q, Completes U p Q → ∀ a b ρ, a < b → Solves U p' a b ρ → Regular S U q p' a b ρ →
        (o.normalizeTime = true → 0 < ρ a ("_delta_" ++ p.ind)) →
        (∀ u ∈ p.controls.map fun u => if u ∈ epsControls p.path then trigName u else u, ∀ t ∈ Set.Icc a b,
          DifferentiableAt ℝ (fun τ => ρ τ u) t) →
        (∀ s, ¬ Reserved s → s ∉ p.states.map Dyn.name → s ∉ (p.controls.map fun u => if u ∈ epsControls p.path then trigName u else u) →
          s ≠ p.ind → ∀ t ∈ Set.Icc a b, ρ t s = ρ a s) →
        ∃ ρ2,
          (∀ t, (∀ s ∈ p.states.map Dyn.name ++ p.controls.map fun u => if u ∈ epsControls p.path then trigName u else u,
            ρ2 t s = ρ t s) ∧ ∀ s ∈ p.states, ρ2 t ("_lam_" ++ s.name) = ρ t ("_lam_" ++ s.name)) ∧
          (∀ t ∈ Set.Icc a b, ∀ s ∈ [p.ind] ++ p.constants, ρ2 t s = ρ t s) ∧
          (Regular S U q2 p2' a b ρ2 →
            (o.controlMethod = .algebraic → ∀ t ∈ Set.Icc a b,
              SolveFinds S U (q2.controls.map fun u => (hexpr q2).diff u) q2.controls (ρ2 t)) →
            (o.controlMethod = .differential → ∀ t ∈ Set.Icc a b, Nondegenerate U (hexpr q2) q2.controls (ρ2 t)) →
            Solves U p2' a b ρ2) := by
  obtain ⟨q, B, hq, hB, H⟩ := C64_extremal_partial hL hp hm hd hS h
  obtain ⟨q2, B2, hq2, hB2, H2⟩ := C71_complete_partial hL (hr.stated hp) hm hd h2
  rw [Barriers.unique hB hB2] at H2
  refine ⟨q, q2, hq, hq2, ?_⟩
  intro U Q hQ a b ρ hab hs hreg hpos hdu hconst
  obtain ⟨c, hc⟩ : ∃ c, c = (if o.normalizeTime then ρ a ("_delta_" ++ p.ind) else 1) := ⟨_, rfl⟩
  have hc0 : 0 < c := by
    rw [hc]
    split
    · next hn => exact hpos hn
    · exact one_pos
  have he := H U Q hQ a b ρ hab.le hs hreg c hc hc0
  have hsh := hr.ocp U Q B
  obtain ⟨n0, n1, he2⟩ := hsh.extremal he
  have back : ∀ τ, a + ((ρ a p.ind + c * (τ - a)) - ρ a p.ind) / c = τ := by
    intro τ
    have := hc0.ne'
    field_simp
    ring
  have inside : ∀ t ∈ Set.Icc (ρ a p.ind) (ρ a p.ind + c * (b - a)), a + (t - ρ a p.ind) / c ∈ Set.Icc a b := by
    intro t ht
    constructor
    · have := div_nonneg (sub_nonneg.2 ht.1) hc0.le
      linarith
    · have : (t - ρ a p.ind) / c ≤ b - a := by
        rw [div_le_iff₀ hc0]
        linarith [ht.2, mul_comm c (b - a)]
      linarith
  have mv : ∀ s, s ∈ (userOcp U Q B p2).moving ↔ s ∈ (userOcp U Q B p).moving := by
    intro s
    rw [Ocp.moving, Ocp.moving]
    exact (((hsh.rates.map Prod.fst).append hsh.controls).mem_iff).symm
  have mp : (userOcp U Q B p).moving = p.states.map Dyn.name ++ (p.controls.map fun u => if u ∈ epsControls p.path then trigName u else u) := by
    rw [Ocp.moving]
    simp [userOcp]
  obtain ⟨⟨ρ2, hcar, hz⟩, hall⟩ := H2 U Q (hr.completes hQ) _ _ _ _ _ _ he2 (by
      intro s hs t ht
      have hs : s ∈ p.controls.map fun u => if u ∈ epsControls p.path then trigName u else u := hsh.controls.mem_iff.2 hs
      have := hdu s hs _ (inside t ht)
      exact DifferentiableAt.comp (g := fun τ => ρ τ s) (f := fun t => a + (t - ρ a p.ind) / c) t this (by fun_prop)) (by
      intro s hs hmov hind t ht
      have hmov : s ∉ (userOcp U Q B p).moving := fun k => hmov ((mv s).2 k)
      rw [mp, List.mem_append, not_or] at hmov
      rw [hr.ind] at hind
      have e1 := hconst s hs hmov.1 hmov.2 hind _ (inside t ht)
      rw [show a + (ρ a p.ind - ρ a p.ind) / c = a by simp]
      exact e1) a b c hab hc0 (by
      intro hn
      rw [hc, hn]
      rfl) rfl
  have hmovv : ∀ τ, ∀ s ∈ (userOcp U Q B p).moving, ρ2 τ s = ρ τ s := by
    intro τ s hs
    rw [hcar.moving s ((mv s).2 hs) τ, back]
  refine ⟨ρ2, ?_, ?_, ?_⟩
  · intro t
    refine ⟨fun s hs => hmovv t s (by rw [mp]; exact hs), ?_⟩
    intro s hs
    have hr2 : (s.name, fun σ => eval (real U) (Q σ) s.eom) ∈ (userOcp U Q B p2).rates :=
      hsh.rates.mem_iff.1 (List.mem_map_of_mem (f := fun d : Dyn => (d.name, fun σ => eval (real U) (Q σ) d.eom)) hs)
    have := hcar.costates _ hr2 t
    rw [back] at this
    exact this
  · intro t ht s hs
    rcases List.mem_append.1 hs with hs | hs
    · rw [List.mem_singleton] at hs
      subst hs
      have e1 := hcar.time t
      have e2 := he.time (ρ a p.ind + c * (t - a)) ⟨by
        have := mul_nonneg hc0.le (sub_nonneg.2 ht.1)
        linarith, by
        have := mul_le_mul_of_nonneg_left (sub_le_sub_right ht.2 a) hc0.le
        linarith⟩
      rw [back] at e2
      change ρ t p.ind = _ at e2
      rw [e2, ← e1]
      change _ = ρ2 t p2.ind
      rw [hr.ind]
    · by_cases hmv : s ∈ (userOcp U Q B p).moving
      · exact hmovv t s hmv
      · have hpl := hp.plain s (by simp [hs])
        have hne : s ≠ p.ind := by
          intro e
          have hn := hp.names
          rw [e] at hs
          simp only [List.nodup_append, List.mem_append, List.mem_singleton] at hn
          exact hn.1.1.2.2 p.ind (Or.inl (Or.inr rfl)) p.ind hs rfl
        have hmv2 : s ∉ (userOcp U Q B p2).moving := fun k => hmv ((mv s).1 k)
        have hnl : ∀ n, s ≠ "_lam_" ++ n := fun n e => hpl.1 (Or.inl ⟨n, e⟩)
        have hplain : s ≠ "_" ++ p.ind := hpl.2
        have e1 := hcar.rest s hmv2 (by change s ≠ p2.ind; rw [hr.ind]; exact hne) (fun r _ => hnl _) (hnl _) (by
          split
          · exact fun e => hpl.1 (Or.inr (Or.inr (Or.inr (Or.inr e))))
          · change s ≠ "_" ++ p2.ind
            rw [hr.ind]
            exact hplain) t
        have e2 := hcar.plain s hpl.1 hmv2 (by change s ≠ p2.ind; rw [hr.ind]; exact hne)
          (by change s ≠ "_" ++ p2.ind; rw [hr.ind]; exact hplain)
        rw [mp, List.mem_append, not_or] at hmv
        rw [e1, e2, hconst s hpl.1 hmv.1 hmv.2 hne t ht]
        simp
  · intro hreg2 hf hn
    exact hall ρ2 hcar hreg2 hf hn fun _ _ => hz

/-- The reported cost does not depend on the order of declarations, if the rule of integration is additive. -/
theorem C93_cost_partial {S : Sympy} {p p2 q q2 : Prob} (hp : Stated p) (hr : Reordered p p2)
    (hq : primal S p = .ok q) (hq2 : primal S p2 = .ok q2) {U : Name → Nat → ℝ → ℝ} {Q : Env → Env} (hQ : Completes U p Q)
    {rule : List ℝ → List ℝ → ℝ} (hrule : Rule rule) {t : List ℝ} {y qd u y2 qd2 u2 : Arr ℝ} {pr k pr2 k2 : List ℝ} {σ : Nat → Env}
    {v v2 : ℝ} (hs : Samples q σ t y u k) (hs2 : Samples q2 σ t y2 u2 k2)
    (hv : computeCost rule (real U) q t y qd u pr k = .ok v) (hv2 : computeCost rule (real U) q2 t y2 qd2 u2 pr2 k2 = .ok v2) :
    v2 = v := by
  obtain ⟨B, hB, H⟩ := C72_cost_partial hp hq
  obtain ⟨B2, hB2, H2⟩ := C72_cost_partial (hr.stated hp) hq2
  cases Barriers.unique hB hB2
  rw [H U Q hQ rule hrule t y qd u pr k σ v hs hv, H2 U Q (hr.completes hQ) rule hrule t y2 qd2 u2 pr2 k2 σ v2 hs2 hv2]
  simp only [stated, penalised, hr.costs, penalties_perm hr.path, penalties_perm hr.initial, penalties_perm hr.terminal]

/-! ### A concrete case

The problem `exP` of `Verif.Extremal.Props` with all boundary constraints in the reverse order. -/

def exSwap : Prob := { exP with initial := exP.initial.reverse, terminal := exP.terminal.reverse }

theorem exSwap_reordered : Reordered exP exSwap :=
  ⟨rfl, .refl _, .refl _, .refl _, .refl _, .refl _, (List.reverse_perm _).symm, .refl _, (List.reverse_perm _).symm, ⟨rfl, rfl, rfl⟩, .refl _, .refl _,
    rfl, rfl, rfl⟩

def exSwap' : Prob := match indirect Opt.exS exO exSwap with
  | .ok p => p
  | .error _ => {}

theorem exSwap'_ok : indirect Opt.exS exO exSwap = .ok exSwap' := by
  have : (match indirect Opt.exS exO exSwap with | .ok _ => true | .error _ => false) = true := by decide +kernel
  rw [exSwap']
  cases h : indirect Opt.exS exO exSwap with
  | ok p => rfl
  | error e => rw [h] at this; cases this

def exSwapq : Prob := match primal Opt.exS exSwap with
  | .ok p => p
  | .error _ => {}

theorem exSwapq_ok : primal Opt.exS exSwap = .ok exSwapq := by
  have : (match primal Opt.exS exSwap with | .ok _ => true | .error _ => false) = true := by decide +kernel
  rw [exSwapq]
  cases h : primal Opt.exS exSwap with
  | ok p => rfl
  | error e => rw [h] at this; cases this

theorem exSwapq_eq : exSwapq.states = exq.states ∧ exSwapq.costPath = exq.costPath ∧ exSwapq.costInitial = exq.costInitial ∧
    exSwapq.costTerminal = exq.costTerminal ∧ exSwapq.initial = exq.initial.reverse ∧ exSwapq.terminal = exq.terminal ∧
    exSwapq.controls = exq.controls ∧ hexpr exSwapq = hexpr exq ∧ exSwap'.states = exP'.states ∧ exSwap'.controlLaw = exP'.controlLaw ∧
    exSwap'.controls = exP'.controls ∧ exSwap'.omega = none := by decide +kernel

theorem exSwap_regular (U : Name → Nat → ℝ → ℝ) {ρ : ℝ → Env} (h0 : ρ 0 "x" = 0) (h1 : ρ 1 "x" = 1)
    (hu : ∀ t, ρ t "u" = exCurve t "u") : Regular Opt.exS U exSwapq exSwap' 0 1 ρ := by
  obtain ⟨e1, e2, e3, e4, e5, e6, e7, e8, e9, e10, e11, e12⟩ := exSwapq_eq
  have ends : ∀ σ : Env, σ "x" = 0 ∨ σ "x" = 1 → SmoothEnds exSwapq U σ := by
    intro σ hσ
    obtain ⟨k1, k2, k3⟩ := exEnds U hσ
    rw [SmoothEnds, e3, e4, e5, e6]
    refine ⟨k1, k2, fun c hc => k3 c ?_⟩
    simpa using hc
  have E := exRegular U
  refine ⟨?_, (ends _ (Or.inl h0)).start, (ends _ (Or.inr h1)).stop, ?_, ?_, ?_, ?_, ?_⟩
  · intro t _
    have := exRates U (ρ t)
    rw [SmoothRates] at this ⊢
    rw [e1, e2]
    exact this
  · intro t _ u _
    rw [e8, exh]
    simp only [diff]
    refine ⟨⟨⟨?_, ⟨?_, ?_⟩, ?_, ?_⟩, ⟨?_, ?_⟩, ?_, ?_⟩, ⟨?_, ?_⟩, ?_, ?_⟩ <;> (try split) <;> trivial
  · intro t _ d hd
    rw [e9, exP'_states, exh] at hd
    simp only [List.mem_cons, List.not_mem_nil, or_false] at hd
    rcases hd with rfl | rfl | rfl | rfl
    · exact ⟨trivial, trivial⟩
    · exact ⟨trivial, trivial⟩
    · exact ⟨⟨trivial, ⟨⟨trivial, ⟨trivial, trivial⟩, trivial, trivial⟩, ⟨trivial, trivial⟩, trivial, trivial⟩,
        ⟨trivial, trivial⟩, trivial, trivial⟩, trivial⟩
    · exact ⟨⟨trivial, ⟨⟨trivial, ⟨trivial, trivial⟩, trivial, trivial⟩, ⟨trivial, trivial⟩, trivial, trivial⟩,
        ⟨trivial, trivial⟩, trivial, trivial⟩, trivial⟩
  · intro t _ opt ho e he
    rw [e10, exP'_rest.2.1, List.mem_singleton] at ho
    subst ho
    rw [List.mem_singleton] at he
    subst he
    refine ⟨⟨trivial, trivial⟩, trivial, ?_⟩
    simp [eval]
  · intro t ht u huc
    rw [e11, exP'_rest.1, List.mem_singleton] at huc
    subst huc
    have : (fun τ => ρ τ "u") = fun τ => exCurve τ "u" := funext hu
    rw [this]
    exact (exCurve_const "u" (by decide) (by decide) (by decide) t ht).differentiableAt
  · intro om ho
    rw [e12] at ho
    cases ho

/-- The straight line with unit speed also solves the boundary value problem of the problem in the other order. -/
example (U : Name → Nat → ℝ → ℝ) : ∃ ρ2, (∀ t, ρ2 t "x" = t ∧ ρ2 t "u" = 1) ∧ Solves U exSwap' 0 1 ρ2 := by
  obtain ⟨q, q2, hq, hq2, H⟩ := C93_solutions_partial (luSound_cramer Opt.exS rfl) exP_stated exSwap_reordered (o := exO) rfl
    (by decide) (fun _ => exS_sound) exP'_ok exSwap'_ok
  rw [exq_ok] at hq
  rw [exSwapq_ok] at hq2
  cases hq
  cases hq2
  have hctl : (exP.controls.map fun u => if u ∈ epsControls exP.path then trigName u else u) = ["u"] := by decide
  have hst : exP.states.map Dyn.name = ["x"] := rfl
  obtain ⟨ρ2, k1, k2, k3⟩ := H U Opt.exQ (exQ_completes U) 0 1 exCurve (by norm_num) (exSolves U) (exRegular U) (by
      intro _
      have : exCurve 0 ("_delta_" ++ exP.ind) = 1 := by
        have e : "_delta_" ++ exP.ind = "_delta_t" := rfl
        rw [e]
        simp [exCurve]
      rw [this]
      exact one_pos) (by
      intro u hu t ht
      rw [hctl, List.mem_singleton] at hu
      subst hu
      exact (exCurve_const "u" (by decide) (by decide) (by decide) t ht).differentiableAt) (by
      intro s h1 h2 h3 h4 t _
      rw [hst, List.mem_singleton] at h2
      have e2 : s ≠ "t" := h4
      have e3 : s ≠ "_tau" := fun e => h1 (Or.inr (Or.inr (Or.inr (Or.inr e))))
      simp [exCurve, h2, e2, e3])
  rw [hctl, hst] at k1
  have kx : ∀ t, ρ2 t "x" = t := fun t => by rw [(k1 t).1 "x" (by simp)]; simp [exCurve]
  have ku : ∀ t, ρ2 t "u" = exCurve t "u" := fun t => (k1 t).1 "u" (by simp)
  have kl : ∀ t, ρ2 t "_lam_x" = -2 := by
    intro t
    have : ρ2 t ("_lam_" ++ "x") = exCurve t ("_lam_" ++ "x") := (k1 t).2 ⟨"x", sym "u"⟩ (by simp [exP])
    have e : "_lam_" ++ "x" = "_lam_x" := rfl
    rw [e] at this
    rw [this]
    simp [exCurve]
  refine ⟨ρ2, fun t => ⟨kx t, by rw [ku]; simp [exCurve]⟩, k3 (exSwap_regular U (kx 0) (kx 1) ku) ?_ (fun e => by cases e)⟩
  intro _ t _ _
  have : Opt.exS.solve (exSwapq.controls.map fun u => (hexpr exSwapq).diff u) exSwapq.controls = [[("u", -(sym "_lam_x") / 2)]] := by
    decide +kernel
  rw [this, exSwapq_eq.2.2.2.2.2.2.1, exq_controls]
  refine ⟨_, List.mem_singleton_self _, ?_⟩
  intro x hx
  rw [List.mem_singleton] at hx
  subst hx
  exact ⟨_, rfl, by rw [ku]; simp [eval, exCurve, kl]⟩

end Beluga.E2E
