import Verif.Extremal.DefectDiffyg
import Verif.Extremal.Props

/-! # From the generated boundary value problem with a defect to the dual problem -/

namespace Beluga.Opt

open Beluga.Sym Beluga.Sym.Expr

variable {U : Name → Nat → ℝ → ℝ}

/-- Following the normalised equations is following the others at another pace. -/
theorem shadows_pace {norm : Bool} {L : List Dyn} {ind : Name} {δ a b : ℝ} {ρ : ℝ → Env}
    (hd : norm = true → Moves a b ρ 0 ("_delta" ++ ind))
    (h : Shadows U (if norm then L.map fun s => ⟨s.name, s.eom * sym ("_delta" ++ ind)⟩ else L) 1 δ a b ρ) :
    Shadows U L (pace norm ind a ρ) δ a b ρ := by
  cases norm
  · simpa [pace] using h
  · intro t ht d hdm
    obtain ⟨v, h1, h2⟩ := h t ht ⟨d.name, d.eom * sym ("_delta" ++ ind)⟩ (by
      simp only [if_true]; exact List.mem_map.2 ⟨d, hdm, rfl⟩)
    refine ⟨v, h1, ?_⟩
    have e : 1 * eval (real U) (ρ t) (d.eom * sym ("_delta" ++ ind)) = pace true ind a ρ * eval (real U) (ρ t) d.eom := by
      rw [eval_mul, show eval (real U) (ρ t) (sym ("_delta" ++ ind)) = ρ t ("_delta" ++ ind) from rfl,
        moves_const (hd rfl) t ht, pace, if_pos rfl]
      ring
    rwa [e] at h2

/-- Following the generated costate equations is following the adjoint equations. -/
theorem Dualized.shadows {q qd : Prob} (h : Dualized q qd) {c δ a b : ℝ} {ρ : ℝ → Env}
    (hd : ∀ t ∈ Set.Icc a b, ∀ d ∈ qd.costates, Defined (real U) (ρ t) d.eom)
    (hf : Shadows U qd.costates c δ a b ρ) :
    Shadows U (q.states.map fun s => ⟨lamName s.name, -((hexpr q).diff s.name)⟩) c δ a b ρ := by
  intro t ht d hdm
  obtain ⟨s, hs, rfl⟩ := List.mem_map.1 hdm
  obtain ⟨l, hl, e1, e2⟩ := forall₂_right h.costates s hs
  obtain ⟨v, h1, h2⟩ := hf t ht l hl
  rw [e1] at h1
  rw [e2 U _ (hd t ht l hl)] at h2
  exact ⟨v, h1, by rwa [eval_neg]⟩

/-- The adjoint equations split into those of the other states and that of the time. -/
theorem shadows_last {q : Prob} {init : List Dyn} {tn : Name} (hst : q.states = init ++ [⟨tn, 1⟩]) {c δ a b : ℝ} {ρ : ℝ → Env}
    (hδ : 0 ≤ δ) (hf : Shadows U (q.states.map fun s => ⟨lamName s.name, -((hexpr q).diff s.name)⟩) c δ a b ρ) :
    Shadows U (q.states.dropLast.map fun s => ⟨lamName s.name, -((hexpr q).diff s.name)⟩) c δ a b ρ ∧
    ∀ t ∈ Set.Icc a b, ∃ v, HasDerivAt (fun τ => ρ τ (lamName tn)) v t ∧ ∃ (θ : ℝ) (r : Name → ℝ), 0 ≤ θ ∧ θ ≤ 1 ∧
      (∀ u ∈ q.controls, |deriv (fun τ => ρ τ u) t - r u| ≤ δ) ∧
      |v + c * eval (real U) (ρ t) ((hexpr q).diff tn) +
        θ * (q.controls.map fun u => eval (real U) (ρ t) ((hexpr q).diff u) * r u).sum| ≤ δ := by
  constructor
  · intro t ht d hd
    obtain ⟨s, hs, rfl⟩ := List.mem_map.1 hd
    exact hf t ht _ (List.mem_map.2 ⟨s, List.mem_of_mem_dropLast hs, rfl⟩)
  · intro t ht
    obtain ⟨v, h1, h2⟩ := hf t ht ⟨lamName tn, -((hexpr q).diff tn)⟩ (List.mem_map.2 ⟨⟨tn, 1⟩, by simp [hst], rfl⟩)
    refine ⟨v, h1, 0, fun u => deriv (fun τ => ρ τ u) t, le_refl _, zero_le_one, fun u _ => by rw [sub_self, abs_zero]; exact hδ, ?_⟩
    rw [eval_neg] at h2
    refine le_trans (le_of_eq ?_) h2
    congr 1
    ring

/-- With the differential control law the controls stay stationary up to the defect. -/
theorem stationary_defect {S : Sympy} (hS : LuSound S) {p p' : Prob} (h : differentialControl S .traditional p = .ok p')
    {H : Expr} (hH : p.hamiltonian = some H) (hn : ((p.states ++ p.costates).map Dyn.name ++ p.controls).Nodup)
    {c δ a b : ℝ} {ρ : ℝ → Env} (hsol : Shadows U (p'.states ++ p'.costates) c δ a b ρ)
    (hconst : ∀ s ∈ H.free, s ∉ (p.states ++ p.costates).map Dyn.name ++ p.controls → Moves a b ρ 0 s)
    (hsm : ∀ t ∈ Set.Icc a b, ∀ u ∈ p.controls, Smooth U (ρ t) (H.diff u))
    (hdef : ∀ t ∈ Set.Icc a b, ∀ d ∈ p'.states, Defined (real U) (ρ t) d.eom) {N : ℝ} (hδ : 0 ≤ δ)
    (hN : ∀ t ∈ Set.Icc a b, ∀ u ∈ p.controls, (((p.states ++ p.costates).map Dyn.name ++ p.controls).map fun x =>
      |eval (real U) (ρ t) ((H.diff u).diff x)|).sum ≤ N) :
    ∀ u ∈ p.controls, ({ expr := H.diff u } : Con) ∈ p'.terminal ∧
      ∀ t ∈ Set.Icc a b, |eval (real U) (ρ b) (H.diff u) - eval (real U) (ρ t) (H.diff u)| ≤ δ * N * (b - t) := by
  obtain ⟨-, -, H', udot, hH', hlu, rfl⟩ := differential_traditional h
  rw [hH] at hH'
  cases hH'
  obtain ⟨hlen, hsolve⟩ := udot_solves hS hlu
  have hnames := ctlStates_names hlen
  intro u hu
  have hmem : H.diff u ∈ gOf H p.controls := List.mem_map_of_mem hu
  have hperm : List.Perm (p.states.map Dyn.name ++ p.controls ++ p.costates.map Dyn.name)
      (p.states.map Dyn.name ++ p.costates.map Dyn.name ++ p.controls) := by
    rw [List.append_assoc, List.append_assoc]
    exact List.Perm.append_left _ List.perm_append_comm
  have h0 : ∀ t ∈ Set.Icc a b, ∃ v, HasDerivAt (fun τ => eval (real U) (ρ τ) (H.diff u)) v t ∧ |v| ≤ δ * N := by
    intro t ht
    obtain ⟨v, hv, hb⟩ := hsol.deriv
      (by
        simp only [List.map_append, hnames] at hn ⊢
        exact hperm.nodup_iff.2 hn)
      (e := H.diff u)
      (by
        intro s hs hns
        apply hconst s (mem_free_diff hs)
        simp only [List.map_append, hnames, List.mem_append, not_or] at hns ⊢
        tauto) ht
      (hsm t ht u hu)
    refine ⟨v, hv, ?_⟩
    have hz := hsolve (real U) (ρ t) (by
      intro e he
      obtain ⟨i, hi, rfl⟩ := List.mem_iff_getElem.1 he
      have := hdef t ht ⟨p.controls[i], udot[i]⟩ (by
        simp only [List.mem_append]
        right
        rw [ctlStates]
        refine List.mem_map.2 ⟨(p.controls[i], udot[i]), ?_, rfl⟩
        rw [List.mem_iff_getElem]
        exact ⟨i, by simp [hlen]; omega, by simp⟩)
      exact this) _ hmem
    have hzero : ((p.states ++ ctlStates p.controls udot ++ p.costates).map fun d =>
        eval (real U) (ρ t) ((H.diff u).diff d.name) * eval (real U) (ρ t) d.eom).sum = 0 := by
      simp only [Prob.dyn, List.map_append, List.sum_append] at hz ⊢
      linear_combination hz
    have hsum : ((p.states ++ ctlStates p.controls udot ++ p.costates).map fun d =>
        |eval (real U) (ρ t) ((H.diff u).diff d.name)|).sum ≤ N := by
      have e : ((p.states ++ ctlStates p.controls udot ++ p.costates).map fun d =>
          |eval (real U) (ρ t) ((H.diff u).diff d.name)|) = ((p.states ++ ctlStates p.controls udot ++ p.costates).map Dyn.name).map
          fun x => |eval (real U) (ρ t) ((H.diff u).diff x)| := by rw [List.map_map]; rfl
      rw [e, List.map_append (f := Dyn.name), List.map_append (f := Dyn.name), hnames, (hperm.map _).sum_eq]
      have := hN t ht u hu
      rwa [List.map_append (f := Dyn.name)] at this
    dsimp only at hb
    rw [hzero, mul_zero, sub_zero] at hb
    exact hb.trans (mul_le_mul_of_nonneg_left hsum hδ)
  refine ⟨?_, fun t ht => change_le h0 ht⟩
  simp only [List.mem_append]
  right
  exact List.mem_map_of_mem hmem

/-- A solution, up to tolerances, of what `Dualize`, a control law, `NormalizeTime`, `SquashToBVP` and
`ComputeAnalyticalJacobians` make of `q` solves the dual problem of `q` up to tolerances. -/
theorem pipeline_defect {S : Sympy} (hL : LuSound S) {q p' : Prob} (hq : Clean q) {m : Method} (hm : m ≠ .other) {ctl : Step}
    {norm jac : Bool} (hctl : ctl = .algebraic ∧ SolveSound S ∨ ctl = .differential m)
    {init : List Dyn} {tn : Name} (hlast : q.states = init ++ [⟨tn, 1⟩])
    (h : runSteps S ([.dualize m, ctl] ++ (if norm then [.normalizeTime] else []) ++ [.squash] ++
      (if jac then [.jacobians] else [])) q = .ok p') {ε η δ a b M N V : ℝ} {ρ : ℝ → Env}
    (hη : η = 0 ∧ ctl = .algebraic ∨ η = ε + δ * N * (b - a) ∧ ctl ≠ .algebraic) (hδ : 0 ≤ δ) (hs : DefectSolves U p' ε δ a b ρ)
    (hr : Regular S U q p' a b ρ) (hz : Sized U q M N V a b ρ) (hpos : norm = true → 0 < ρ a ("_delta" ++ q.ind))
    (hdelta : norm = true → "_delta" ++ q.ind ∈ p'.parameters) :
    DualDefect U q tn ε η δ (pace norm q.ind a ρ) a b ρ ∧
      (∀ s, s ∉ q.states.map Dyn.name ++ q.states.map (fun s => lamName s.name) ++ q.controls ++ q.quads.map Dyn.name →
        s ∉ q.controls.map lamName → s ≠ q.ind → s ≠ "_tau" → Moves a b ρ 0 s) := by
  rw [List.append_assoc, List.append_assoc, List.cons_append, List.cons_append, List.nil_append, runSteps_cons] at h
  obtain ⟨qd, hd, h⟩ := bind_ok h
  rw [runSteps_cons] at h
  obtain ⟨q1, h1, h⟩ := bind_ok h
  have hd : dualize S m q = .ok qd := hd
  rw [← List.append_assoc] at h
  obtain ⟨t1, t2, t3, t4, t5, t6, t7⟩ := tail_ok h
  have t8 := tail_omega h
  have hD := dualize_any hL hq hm hd
  -- the names that move
  have hfixed : q1.ind = q.ind → q1.quads = q.quads → q1.coparameters = [] →
      (∀ s ∈ (q1.states ++ q1.costates).map Dyn.name ++ q1.controls,
        s ∈ q.states.map Dyn.name ++ q.states.map (fun s => lamName s.name) ++ q.controls ∨ s ∈ q.controls.map lamName) →
      ∀ s, s ∉ q.states.map Dyn.name ++ q.states.map (fun s => lamName s.name) ++ q.controls ++ q.quads.map Dyn.name →
        s ∉ q.controls.map lamName → s ≠ q.ind → s ≠ "_tau" → Moves a b ρ 0 s := by
    intro e1 e2 e3 e4 s hs1 hs4 hs2 hs3
    rw [List.mem_append, not_or] at hs1
    have hnm : ∀ x ∈ p'.states.map Dyn.name, x ∈ (q1.states ++ q1.costates).map Dyn.name := by
      intro x hx
      rw [t1] at hx
      split at hx
      · rw [List.map_map] at hx
        exact hx
      · exact hx
    refine hs.fixed s (fun hx => (e4 s (List.mem_append_left _ (hnm s hx))).elim hs1.1 hs4) ?_ ?_ ?_
    · rw [t6, e2, e3, List.append_nil]
      exact hs1.2
    · rw [t4]
      exact fun hx => (e4 s (List.mem_append_right _ hx)).elim hs1.1 hs4
    · rw [t7]
      split
      · exact hs3
      · rw [e1]; exact hs2
  have hmoves : (∀ s, s ∉ q.states.map Dyn.name ++ q.states.map (fun s => lamName s.name) ++ q.controls ++
        q.quads.map Dyn.name → s ∉ q.controls.map lamName → s ≠ q.ind → s ≠ "_tau" → Moves a b ρ 0 s) →
      Moves a b ρ 0 ("_delta" ++ q.ind) := by
    intro hf
    refine hf _ hq.delta ?_ ?_ hq.delta_tau
    · intro hx
      obtain ⟨u, hu, e⟩ := List.mem_map.1 hx
      exact (hq.lam_controls u hu).2 e
    intro e
    have h2 := congrArg String.length e
    rw [String.length_append] at h2
    have h3 : "_delta".length = 6 := by decide
    omega
  have hpace : q1.ind = q.ind → (∀ s, s ∉ q.states.map Dyn.name ++ q.states.map (fun s => lamName s.name) ++ q.controls ++
        q.quads.map Dyn.name → s ∉ q.controls.map lamName → s ≠ q.ind → s ≠ "_tau" → Moves a b ρ 0 s) →
      Shadows U (q1.states ++ q1.costates) (pace norm q.ind a ρ) δ a b ρ := by
    intro e1 hf
    have := hs.follows
    rw [t1, e1] at this
    exact shadows_pace (fun _ => hmoves hf) this
  have hcpos : 0 < pace norm q.ind a ρ := by
    rw [pace]
    split
    · next hn => exact hpos hn
    · exact one_pos
  have hdef : ∀ t ∈ Set.Icc a b, ∀ d ∈ q1.states ++ q1.costates, Defined (real U) (ρ t) d.eom := by
    intro t ht d hd
    cases norm
    · exact hr.defined t ht d (by rw [t1]; simpa using hd)
    · have := hr.defined t ht ⟨d.name, d.eom * sym ("_delta" ++ q1.ind)⟩ (by
        rw [t1, if_pos rfl]
        exact List.mem_map.2 ⟨d, hd, rfl⟩)
      exact this.1
  have hclock : q1.ind = q.ind → (∀ s, s ∉ q.states.map Dyn.name ++ q.states.map (fun s => lamName s.name) ++ q.controls ++
        q.quads.map Dyn.name → s ∉ q.controls.map lamName → s ≠ q.ind → s ≠ "_tau" → Moves a b ρ 0 s) →
      (∃ d ∈ q1.states, d.name = tn ∧ ∀ (U : Name → Nat → ℝ → ℝ) (σ : Env),
        (∀ e ∈ q1.states ++ q1.costates, Defined (real U) σ e.eom) → eval (real U) σ d.eom = 1) →
      ∀ t ∈ Set.Icc a b, HasDerivAt (fun τ => ρ τ tn) (pace norm q.ind a ρ) t := by
    intro e1 hf hex t ht
    obtain ⟨d, hmem, rfl, hone⟩ := hex
    cases norm
    · simp only [Bool.false_eq_true, if_false] at t1
      have := hs.steady t ht d (by rw [t1]; exact List.mem_append_left _ hmem) fun σ σ' _ hdd => by
        rw [t1] at hdd
        rw [hone U σ fun e he => (hdd e he).1, hone U σ' fun e he => (hdd e he).2]
      rwa [hone U _ (hdef t ht)] at this
    · simp only [if_true, e1] at t1
      have hdd : ∀ σ, (∀ d ∈ p'.states, Defined (real U) σ d.eom) → ∀ e ∈ q1.states ++ q1.costates, Defined (real U) σ e.eom := by
        intro σ hh e he
        have := hh ⟨e.name, e.eom * sym ("_delta" ++ q.ind)⟩ (by rw [t1]; exact List.mem_map.2 ⟨e, he, rfl⟩)
        exact this.1
      have := hs.steady t ht ⟨d.name, d.eom * sym ("_delta" ++ q.ind)⟩ (by
        rw [t1]
        exact List.mem_map.2 ⟨d, List.mem_append_left _ hmem, rfl⟩) fun σ σ' hσ hd2 => by
          rw [eval_mul, eval_mul, hone U σ (hdd σ fun e he => (hd2 e he).1), hone U σ' (hdd σ' fun e he => (hd2 e he).2)]
          exact congrArg _ (hσ _ (List.mem_append_left _ (hdelta rfl)))
      refine this.congr_deriv ?_
      rw [eval_mul, hone U _ (hdef t ht), one_mul, pace, if_pos rfl]
      exact moves_const (hmoves hf) t ht
  have htm : (⟨tn, 1⟩ : Dyn) ∈ q.states := by simp [hlast]
  have htd : q.states ⊆ q1.states → ∃ d ∈ q1.states, d.name = tn ∧ ∀ (U : Name → Nat → ℝ → ℝ) (σ : Env),
      (∀ e ∈ q1.states ++ q1.costates, Defined (real U) σ e.eom) → eval (real U) σ d.eom = 1 :=
    fun hsub => ⟨_, hsub htm, rfl, fun U σ _ => eval_one _ _⟩
  rcases hctl with ⟨rfl, hsol⟩ | rfl
  · -- algebraic
    have h1 : algebraicControl S qd = .ok q1 := h1
    obtain ⟨dhdu, chain, e, hlaw⟩ := algebraic_ok hD.ham h1
    have g1 : q1.states = qd.states := by rw [e]
    have g2 : q1.costates = qd.costates := by rw [e]
    have g3 : q1.ind = qd.ind := by rw [e]
    have g4 : q1.quads = qd.quads := by rw [e]
    have g5 : q1.coparameters = qd.coparameters := by rw [e]
    have g6 : q1.controls = qd.controls := by rw [e]
    have g7 : q1.initial = qd.initial := by rw [e]
    have g8 : q1.terminal = qd.terminal := by rw [e]
    have hf := hfixed (g3.trans hD.ind) (g4.trans hD.quads) (g5.trans hD.coparameters) (by
      intro s hs
      rw [List.map_append, g1, g2, hD.names, g6, hD.controls, hD.states] at hs
      exact Or.inl hs)
    have hfol := hpace (g3.trans hD.ind) hf
    rw [g1, g2, hD.states] at hfol
    obtain ⟨l1, l2⟩ := shadows_last hlast hδ (hD.shadows (fun t ht d hd => hdef t ht d (by
      rw [g2]; exact List.mem_append_right _ hd)) hfol.right)
    refine ⟨⟨hcpos, hfol.left, l1, l2, hclock (g3.trans hD.ind) hf (htd (by rw [g1, hD.states]; exact List.Subset.refl _)),
      ?_, ?_, ?_, ?_⟩, hf⟩
    · intro u hu t ht
      exact hr.controls t ht u (by rw [t4, g6, hD.controls]; exact hu)
    · intro u hu
      have hη0 : η = 0 := by
        rcases hη with hη | hη
        · exact hη.1
        · exact absurd rfl hη.2
      intro t ht
      suffices key : eval (real U) (ρ t) ((hexpr q).diff u) = 0 by rw [key, abs_zero, hη0]
      have hne : p'.controls ≠ [] := by
        rw [t4, g6, hD.controls]
        exact List.ne_nil_of_mem hu
      obtain ⟨opt, hopt, hval⟩ := hs.law hne t ht
      rw [t4, g6, hD.controls] at hval
      have hopt' := hopt
      rw [t5] at hopt
      rw [hD.controls] at hlaw
      obtain ⟨sol, hsm, hpk⟩ := forall₂_right hlaw opt hopt
      refine hsol U _ _ sol hsm (ρ t) ?_ _ (List.mem_map_of_mem hu)
      intro x hx
      obtain ⟨e, he, h2, h3⟩ := forall₂_both (pickOption_ok hpk) hval x hx
      exact ⟨e, h2, hr.law t ht opt hopt' e he, h3⟩
    · have := hs.initial
      rwa [t2, g7, hD.initial] at this
    · have := hs.terminal
      rwa [t3, g8, hD.terminal] at this
  · -- differential
    have h1 : differentialControl S m qd = .ok q1 := h1
    have hX := differential_any hL hD h1
    have hf := hfixed hX.ind hX.quads hX.coparameters (by
      intro s hs
      rw [List.map_append, hX.names, hX.lams, hX.controls, List.append_nil] at hs
      simp only [List.mem_append] at hs ⊢
      rcases hs with (hs | hs) | hs | hs
      · exact .inl (.inl (.inl hs))
      · exact .inl (.inr hs)
      · exact .inl (.inl (.inr hs))
      · split at hs
        · exact .inr hs
        · cases hs)
    have hfol := hpace hX.ind hf
    have hηε : η = ε + δ * N * (b - a) := by
      rcases hη with hη | hη
      · cases hη.2
      · exact hη.1
    have hfree : ∀ s ∈ (hexpr q).free, s ∉ q.states.map Dyn.name ++ q.states.map (fun s => lamName s.name) ++ q.controls →
        Moves a b ρ 0 s := by
      intro s hs hns
      have h3 := hq.free s hs
      refine hf s (by rw [List.mem_append, not_or]; exact ⟨hns, h3.1⟩) ?_ h3.2.1 h3.2.2
      intro hx
      obtain ⟨u, hu, rfl⟩ := List.mem_map.1 hx
      exact (hq.lam_controls u hu).1 hs
    have hchange : ∀ u ∈ q.controls, |eval (real U) (ρ b) ((hexpr q).diff u)| ≤ ε → ∀ t ∈ Set.Icc a b,
        |eval (real U) (ρ b) ((hexpr q).diff u) - eval (real U) (ρ t) ((hexpr q).diff u)| ≤ δ * N * (b - t) →
        |eval (real U) (ρ t) ((hexpr q).diff u)| ≤ η := by
      intro u hu k3 t ht k4
      have k5 := abs_sub_abs_le_abs_sub (eval (real U) (ρ t) ((hexpr q).diff u)) (eval (real U) (ρ b) ((hexpr q).diff u))
      rw [abs_sub_comm] at k5
      have hN : 0 ≤ N := le_trans (List.sum_nonneg fun x hx => by
        obtain ⟨y, -, rfl⟩ := List.mem_map.1 hx
        exact abs_nonneg _) (hz.second t ht u hu)
      have k6 : δ * N * (b - t) ≤ δ * N * (b - a) := mul_le_mul_of_nonneg_left (by linarith [ht.1]) (mul_nonneg hδ hN)
      rw [hηε]
      linarith
    cases m with
    | other => exact absurd rfl hm
    | traditional =>
      obtain ⟨-, -, H, udot, hH, hlu, e⟩ := differential_traditional h1
      rw [hD.ham] at hH
      cases hH
      obtain ⟨hlen, -⟩ := udot_solves hL hlu
      have hnm := ctlStates_names hlen
      have g1 : q1.states = qd.states ++ ctlStates qd.controls udot := by rw [e]
      have g2 : q1.costates = qd.costates := by rw [e]
      have g7 : q1.initial = qd.initial := by rw [e]
      have g8 : q1.terminal = qd.terminal ++ (gOf (hexpr q) qd.controls).map fun gk => ({ expr := gk } : Con) := by rw [e]
      have hfol' := hfol
      rw [g1, g2, hD.states] at hfol
      obtain ⟨l1, l2⟩ := shadows_last hlast hδ (hD.shadows (fun t ht d hd => hdef t ht d (by
        rw [g2]; exact List.mem_append_right _ hd)) hfol.right)
      refine ⟨⟨hcpos, hfol.left.left, l1, l2, hclock hX.ind hf (htd (by
          rw [g1, hD.states]; exact List.subset_append_left _ _)), ?_, ?_, ?_, ?_⟩, hf⟩
      · intro u hu t ht
        have : u ∈ (ctlStates qd.controls udot).map Dyn.name := by rw [hnm, hD.controls]; exact hu
        obtain ⟨d, hd, rfl⟩ := List.mem_map.1 this
        obtain ⟨v, hv, -⟩ := hfol.left.right t ht d hd
        exact hv.differentiableAt
      · intro u hu t ht
        obtain ⟨k1, k2⟩ := stationary_defect hL h1 hD.ham (by
            rw [List.map_append, hD.names, hD.states, hD.controls]
            exact hq.nodup) hfol' (by
            intro s hs hns
            rw [List.map_append, hD.names, hD.states, hD.controls] at hns
            exact hfree s hs hns) (by
            intro t ht u hu
            exact hr.ham t ht u (by rw [← hD.controls]; exact hu)) (by
            intro t ht d hd
            exact hdef t ht d (List.mem_append_left _ hd)) (N := N) hδ (by
            intro t ht u hu
            rw [List.map_append (f := Dyn.name), hD.names, hD.states, hD.controls]
            exact hz.second t ht u (by rw [← hD.controls]; exact hu)) u (by rw [hD.controls]; exact hu)
        rw [← t3] at k1
        have k3 : |eval (real U) (ρ b) ((hexpr q).diff u)| ≤ ε := hs.terminal _ k1
        have k4 := k2 t ht
        exact hchange u hu k3 t ht k4
      · have := hs.initial
        rwa [t2, g7, hD.initial] at this
      · have := hs.terminal
        rw [t3, g8, hD.terminal] at this
        exact fun c hc => this c (List.mem_append_left _ hc)
    | diffyg =>
      obtain ⟨_, _, _, _, _, _, _, _, _, e⟩ := differential_diffyg h1
      obtain ⟨om, hom⟩ : ∃ om, q1.omega = some om := ⟨_, by rw [e]⟩
      obtain ⟨d1, d2, d3, d4, d5, d6⟩ := diffyg_shadow (N := N) hL hq.sympified hq.costates hq.coparameters hq.parameters hlast
        hq.lam hd h1 (fun u hu => (hq.lam_controls u hu).1) hq.nodup hδ hfree hr.ham (by
          intro t ht
          refine ⟨hdef t ht, fun om hom => (hr.form om (by rw [t8, hom]) t ht).1, ?_⟩
          exact (hr.form om (by rw [t8, hom]) t ht).2 qd hd) hz.second (by
          have := congrArg List.length hX.names
          simpa using this) hfol
      obtain ⟨_, _, _, _, _, _, hini, hter, -⟩ := diffyg_values hL hq.sympified hq.costates hq.coparameters hq.parameters hd h1
        ⟨init, tn, hlast⟩ hq.lam fun u hu => (hq.lam_controls u hu).1
      refine ⟨⟨hcpos, d1, d2, ?_, hclock hX.ind hf d6, d4, ?_, ?_, ?_⟩, hf⟩
      · intro t ht
        obtain ⟨v, k1, r, k2, k3⟩ := d3 t ht
        exact ⟨v, k1, 1, r, zero_le_one, le_refl _, k2, by rw [one_mul]; exact k3⟩
      · intro u hu t ht
        exact hchange u hu (hs.terminal { expr := (hexpr q).diff u } (by
          rw [t3, hter, List.mem_append]
          exact Or.inr (List.mem_map.2 ⟨u, hu, rfl⟩))) t ht (d5 u hu t ht)
      · have := hs.initial
        rw [t2, hini, hD.initial] at this
        exact fun c hc => this c (List.mem_append_left _ hc)
      · have := hs.terminal
        rw [t3, hter, hD.terminal] at this
        exact fun c hc => this c (List.mem_append_left _ hc)

/-- Solutions of the generated boundary value problem up to tolerances solve the dual problem up to tolerances.  `η` is the
tolerance for the stationarity of the controls: zero with the algebraic control law. -/
theorem FrontOk.dualDefect {S : Sympy} (hL : LuSound S) {o : Opts} {p p' p3 q : Prob} {f f2 f3 : Expr → Expr} {ctl : Step}
    (hp : Stated p) (hf : FrontOk p p3 q f f2 f3)
    (hctl : ctl = .algebraic ∧ o.controlMethod = .algebraic ∨
      ctl = .differential o.method ∧ o.controlMethod = .differential)
    (hd : o.method ≠ .other) (hS : o.controlMethod = .algebraic → SolveSound S)
    (h : runSteps S ([.dualize o.method, ctl] ++ (if o.normalizeTime then [.normalizeTime] else []) ++ [.squash] ++
        (if o.analyticalJacobian && o.controlMethod ≠ .algebraic then [.jacobians] else [])) q = .ok p')
    (hpar : o.normalizeTime = true → "_delta" ++ q.ind ∈ p'.parameters)
    {U : Name → Nat → ℝ → ℝ} {ε η δ a b M N V : ℝ} {ρ : ℝ → Env} (hδ : 0 ≤ δ)
    (hη : η = if o.controlMethod = .algebraic then 0 else ε + δ * N * (b - a))
    (hs : DefectSolves U p' ε δ a b ρ) (hr : Regular S U q p' a b ρ) (hz : Sized U q M N V a b ρ) {c : ℝ}
    (hc : c = if o.normalizeTime then ρ a ("_delta_" ++ p.ind) else 1) (hpos : 0 < c) :
    DualDefect U q p.ind ε η δ c a b ρ ∧
    (∀ s, s ∉ q.states.map Dyn.name → s ∉ q.states.map (fun s => lamName s.name) → s ∉ q.controls →
      s ∉ q.controls.map lamName → s ≠ q.ind → s ≠ "_tau" → Moves a b ρ 0 s) ∧
    ∀ s ∈ (hexpr q).free, s ∉ q.states.map Dyn.name ++ q.states.map (fun s => lamName s.name) ++ q.controls → Moves a b ρ 0 s := by
  have hname : "_delta" ++ q.ind = "_delta_" ++ p.ind := by
    rw [hf.ind, ← String.append_assoc]
    rfl
  have hcp : c = pace o.normalizeTime q.ind a ρ := by
    rw [hc, pace, hname]
  have hcl := hf.clean hp
  obtain ⟨h1, h2⟩ := pipeline_defect (U := U) hL hcl hd (ctl := ctl) (norm := o.normalizeTime)
    (jac := o.analyticalJacobian && o.controlMethod ≠ .algebraic)
    (hctl.imp (fun hh => ⟨hh.1, hS hh.2⟩) fun hh => hh.1) hf.states h (η := η) (N := N) (by
      rcases hctl with hh | hh
      · exact Or.inl ⟨by rw [hη, if_pos hh.2], hh.1⟩
      · exact Or.inr ⟨by rw [hη, if_neg (by rw [hh.2]; decide)], by rw [hh.1]; simp⟩) hδ hs hr hz (by
      intro hn
      rw [hn] at hc
      simp only [if_true] at hc
      rw [hname, ← hc]
      exact hpos) hpar
  rw [← hcp] at h1
  have hfixed : ∀ s, s ∉ q.states.map Dyn.name → s ∉ q.states.map (fun s => lamName s.name) → s ∉ q.controls →
      s ∉ q.controls.map lamName → s ≠ q.ind → s ≠ "_tau" → Moves a b ρ 0 s := by
    intro s n1 n2 n3 n6 n4 n5
    refine h2 s ?_ n6 n4 n5
    rw [hf.empty.2.2.2.1]
    simp only [List.mem_append, not_or, List.map_nil, List.not_mem_nil, not_false_eq_true, and_true]
    exact ⟨⟨n1, n2⟩, n3⟩
  refine ⟨h1, hfixed, ?_⟩
  intro s hsf hsn
  simp only [List.mem_append, not_or] at hsn
  have hcf := hcl.free s hsf
  refine hfixed s hsn.1.1 hsn.1.2 hsn.2 ?_ hcf.2.1 hcf.2.2
  intro hx
  obtain ⟨u, hu, rfl⟩ := List.mem_map.1 hx
  exact (hcl.lam_controls u hu).1 hsf

/-- Solutions of the generated boundary value problem up to tolerances are extremals up to tolerances. -/
theorem FrontOk.extremalDefect {p p3 q : Prob} {f f2 f3 : Expr → Expr} (hp : Stated p) (hf : FrontOk p p3 q f f2 f3)
    {B : ℝ → ℝ → ℝ → ℝ → ℝ} {U : Name → Nat → ℝ → ℝ} {Q : Env → Env}
    (hocp : ocpOf U p.ind (p.states.map fun d => ⟨d.name, f3 (f2 (f d.eom))⟩) p.constants q = userOcp U Q B p)
    {ε η δ c a b M N V : ℝ} {ρ : ℝ → Env} (hδ : 0 ≤ δ) (hη : 0 ≤ η) (hab : a ≤ b)
    (h1 : DualDefect U q p.ind ε η δ c a b ρ)
    (hfixed : ∀ s, s ∉ q.states.map Dyn.name → s ∉ q.states.map (fun s => lamName s.name) → s ∉ q.controls →
      s ∉ q.controls.map lamName → s ≠ q.ind → s ≠ "_tau" → Moves a b ρ 0 s)
    (hfree : ∀ s ∈ (hexpr q).free, s ∉ q.states.map Dyn.name ++ q.states.map (fun s => lamName s.name) ++ q.controls →
      Moves a b ρ 0 s)
    (hr : ∀ t ∈ Set.Icc a b, SmoothRates q U (ρ t)) (hsa : SmoothStart q U (ρ a)) (hsb : SmoothStop q U (ρ b))
    (hz : Sized U q M N V a b ρ) :
    DefectExtremal (userOcp U Q B p) ε η (δ / c) ((δ * M + η * V) * (b - a)) (ρ a p.ind) (ρ a p.ind + c * (b - a))
      (fun s => ρ (a + (s - ρ a p.ind) / c)) (fun s n => ρ (a + (s - ρ a p.ind) / c) ("_lam_" ++ n))
      (fun i => ρ a ("_nu_0_" ++ toString i)) (fun i => ρ a ("_nu_f_" ++ toString i)) := by
  have hcl := hf.clean hp
  have hplain : ∀ s, Plain p s → s ∉ q.states.map Dyn.name → s ∉ q.controls → Moves a b ρ 0 s := by
    intro s hs n1 n2
    refine hfixed s n1 ?_ n2 ?_ ?_ ?_
    · intro hh
      obtain ⟨d, -, rfl⟩ := List.mem_map.1 hh
      exact hs.1 (Or.inl ⟨_, rfl⟩)
    · intro hh
      obtain ⟨d, -, rfl⟩ := List.mem_map.1 hh
      exact hs.1 (Or.inl ⟨_, rfl⟩)
    · rw [hf.ind]; exact hs.2
    · exact fun e => hs.1 (Or.inr (Or.inr (Or.inr (Or.inr e))))
  rw [← hocp]
  have hdist := hp.names
  simp only [List.nodup_append, List.mem_append] at hdist
  refine h1.extremal hab hcl.toNamed hδ hη hf.states hfree ?_ ?_ hr hsa hsb hz
  · intro s hsc
    refine hplain s (hp.plain s (by simp [hsc])) ?_ ?_
    · rw [hf.names]
      intro hh
      exact hdist.1.1.2.2 s (Or.inl (by simpa only [List.mem_append] using hh)) s hsc rfl
    · intro hh
      exact (hf.control_mem hp hh).2 (by simp [hsc])
  · intro i
    have hmv : Moves a b ρ 0 ("_nu_f_" ++ toString i) := by
      have hne : ∀ s, Plain p s → "_nu_f_" ++ toString i ≠ s := fun s hs e => hs.1 (Or.inr (Or.inr (Or.inl ⟨_, e.symm⟩)))
      refine hfixed _ ?_ ?_ ?_ ?_ ?_ ?_
      · intro hh
        rw [hf.names] at hh
        exact hne _ (hp.plain _ (by simp only [List.mem_append] at hh ⊢; exact Or.inl (Or.inl hh))) rfl
      · intro hh
        obtain ⟨d, -, e⟩ := List.mem_map.1 hh
        have := congrArg String.toList e
        simp [lamName, String.toList_append] at this
      · intro hh
        exact hne _ (hf.control_mem hp hh).1 rfl
      · intro hh
        obtain ⟨d, -, e⟩ := List.mem_map.1 hh
        have := congrArg String.toList e
        simp [lamName, String.toList_append] at this
      · rw [hf.ind]
        intro e
        exact hp.ind (Or.inr (Or.inr (Or.inl ⟨_, e.symm⟩)))
      · intro e
        have := congrArg String.toList e
        simp [String.toList_append] at this
    exact (moves_const hmv b ⟨hab, le_refl _⟩).symm

end Beluga.Opt
