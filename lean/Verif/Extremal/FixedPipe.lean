import Verif.Extremal.Fixed

/-! # Parameters taken as constants: the generated boundary value problem contains that of the problem without parameters -/

namespace Beluga.Opt

open Beluga.Sym Beluga.Sym.Expr

/-- The problem before `Dualize` with the parameters taken as constants; the names of the coparameters are those of quadratures,
whose rates do not matter. -/
def fixQ (ch : List MapTag) (q : Prob) : Prob :=
  { fixParams q.parameters ch q with quads := q.parameters.map fun n => ⟨lamName n, 0⟩, omega := none }

/-- `y` is `x` without coparameters and their boundary conditions, with other parameters. -/
structure WithinFixed (L : List Dyn) (y x : Prob) : Prop where
  states : y.states = x.states
  costates : y.costates = x.costates
  controls : y.controls = x.controls
  law : y.controlLaw = x.controlLaw
  ind : y.ind = x.ind
  ham : y.hamiltonian = x.hamiltonian
  sympified : y.sympified = x.sympified
  dualized : y.dualized = x.dualized
  coparameters : y.coparameters = []
  quads : y.quads = L
  omega : y.omega = none
  initial : ∀ c ∈ y.initial, c ∈ x.initial
  terminal : ∀ c ∈ y.terminal, c ∈ x.terminal

theorem within_dualize {S : Sympy} {q qd : Prob} (hs : q.sympified = true) (hc : q.costates = []) (hcp : q.coparameters = [])
    (h : dualize S .traditional q = .ok qd) (ch : List MapTag) :
    (∃ y, dualize S .traditional (fixQ ch q) = .ok y ∧ WithinFixed (q.parameters.map fun n => ⟨lamName n, 0⟩) y qd) ∧
    qd.coparameters = (q.parameters.map fun n => ⟨lamName n, -((hexpr q).diff n)⟩) ∧ qd.quads = q.quads ∧
    qd.hamiltonian = some (hexpr q) ∧ (∀ n ∈ q.parameters, ({ expr := sym (lamName n) + (phi0 q).diff n } : Con) ∈ qd.initial ∧
      ({ expr := sym (lamName n) - (phif q).diff n } : Con) ∈ qd.terminal) := by
  rw [dualize_traditional S q hs hc hcp] at h
  simp only [Except.ok.injEq] at h
  subst h
  refine ⟨⟨_, dualize_traditional S (fixQ ch q) hs hc hcp, ?_⟩, rfl, rfl, rfl, ?_⟩
  · refine ⟨rfl, rfl, rfl, rfl, rfl, rfl, rfl, rfl, rfl, rfl, rfl, ?_, ?_⟩
    · intro c hc
      simp only [fixQ, fixParams, List.append_nil, List.mem_append] at hc
      simp only [List.map_append, List.mem_append]
      rcases hc with hc | hc
      · exact Or.inl hc
      · exact Or.inr (Or.inl hc)
    · intro c hc
      simp only [fixQ, fixParams, List.append_nil, List.mem_append] at hc
      simp only [List.map_append, List.mem_append]
      rcases hc with (hc | hc) | hc
      · exact Or.inl (Or.inl hc)
      · exact Or.inl (Or.inr (Or.inl hc))
      · exact Or.inr hc
  · intro n hn
    simp only [List.map_append, List.mem_append]
    exact ⟨Or.inr (Or.inr (List.mem_map.2 ⟨n, hn, rfl⟩)), Or.inl (Or.inr (Or.inr (List.mem_map.2 ⟨n, hn, rfl⟩)))⟩

/-- What a control law leaves alone. -/
structure Passes (x x1 : Prob) : Prop where
  coparameters : x1.coparameters = x.coparameters
  quads : x1.quads = x.quads
  initial : ∀ c ∈ x.initial, c ∈ x1.initial
  terminal : ∀ c ∈ x.terminal, c ∈ x1.terminal

theorem within_algebraic {S : Sympy} {L : List Dyn} {y x x1 : Prob} (hw : WithinFixed L y x) (h : algebraicControl S x = .ok x1) :
    (∃ y1, algebraicControl S y = .ok y1 ∧ WithinFixed L y1 x1) ∧ Passes x x1 := by
  rw [algebraicControl] at h
  split at h
  · cases h
  · next hd =>
    cases hH : x.hamiltonian with
    | none => rw [hH] at h; cases h
    | some H =>
      rw [hH] at h
      obtain ⟨law, hl, h⟩ := bind_ok h
      cases h
      refine ⟨⟨{ y with dhdu := y.controls.map fun u => H.diff u, controlLaw := law, chain := y.chain ++ [.algebraic] }, ?_, ?_⟩,
        rfl, rfl, fun c hc => hc, fun c hc => hc⟩
      · rw [algebraicControl, if_neg (by rw [hw.dualized]; exact hd), hw.ham, hH]
        simp only [hw.controls]
        rw [hl]
        rfl
      · exact ⟨hw.states, hw.costates, hw.controls, rfl, hw.ind, hw.ham.trans hH, hw.sympified, hw.dualized, hw.coparameters, hw.quads,
          hw.omega, hw.initial, hw.terminal⟩

theorem within_differential {S : Sympy} {L : List Dyn} {y x x1 : Prob} (hw : WithinFixed L y x)
    (h : differentialControl S .traditional x = .ok x1) :
    (∃ y1, differentialControl S .traditional y = .ok y1 ∧ WithinFixed L y1 x1) ∧ Passes x x1 := by
  rw [differentialControl] at h
  split at h
  · cases h
  · next hd =>
    cases hH : x.hamiltonian with
    | none => rw [hH] at h; cases h
    | some H =>
      rw [hH] at h
      obtain ⟨dgdx, h1, h⟩ := bind_ok h
      obtain ⟨dgdu, h2, h⟩ := bind_ok h
      obtain ⟨udot, h3, h⟩ := bind_ok h
      cases h
      refine ⟨⟨{ y with
        terminal := y.terminal ++ (x.controls.map fun u => H.diff u).map fun gk => ({ expr := gk } : Con)
        controls := x.controls.drop (ctlStates x.controls udot).length
        states := x.states ++ ctlStates x.controls udot
        chain := y.chain ++ [.differential ((List.range (ctlStates x.controls udot).length).map (x.states.length + ·))] }, ?_, ?_⟩,
        rfl, rfl, fun c hc => hc, fun c hc => List.mem_append_left _ hc⟩
      · rw [differentialControl, if_neg (by rw [hw.dualized]; exact hd), hw.ham, hH]
        simp only [hw.controls, hw.states, hw.costates]
        rw [h1]
        simp only [bind, Except.bind]
        rw [h2]
        simp only []
        rw [h3]
        rfl
      · refine ⟨rfl, hw.costates, rfl, hw.law, hw.ind, hw.ham.trans hH, hw.sympified, hw.dualized, hw.coparameters, hw.quads, hw.omega,
          hw.initial, ?_⟩
        intro c hc
        rcases List.mem_append.1 hc with hc | hc
        · exact List.mem_append_left _ (hw.terminal c hc)
        · exact List.mem_append_right _ hc

theorem tail_runs {S : Sympy} {norm : Bool} {y : Prob} (hs : y.sympified = true) :
    ∃ p0, runSteps S ((if norm then [Step.normalizeTime] else []) ++ [.squash] ++ (if false then [.jacobians] else [])) y = .ok p0 := by
  cases norm
  · exact ⟨_, rfl⟩
  · simp only [if_true, List.cons_append, List.nil_append]
    rw [runSteps_cons]
    change ∃ p0, (normalizeTime y >>= _) = _
    rw [normalizeTime, if_neg (by simp [hs])]
    exact ⟨_, rfl⟩

/-- What the generated boundary value problem has in common with that of the problem without parameters, and what it has for the
parameters. -/
theorem within_pipe {S : Sympy} {q p' : Prob} (hs : q.sympified = true) (hc : q.costates = []) (hcp : q.coparameters = [])
    (hqq : q.quads = []) {ctl : Step} {norm jac : Bool} (hctl : ctl = .algebraic ∨ ctl = .differential .traditional)
    (h : runSteps S ([.dualize .traditional, ctl] ++ (if norm then [.normalizeTime] else []) ++ [.squash] ++
      (if jac then [.jacobians] else [])) q = .ok p') (ch : List MapTag) :
    (∃ p0, runSteps S ([.dualize .traditional, ctl] ++ (if norm then [.normalizeTime] else []) ++ [.squash] ++
        (if false then [.jacobians] else [])) (fixQ ch q) = .ok p0 ∧
      p0.states = p'.states ∧ p0.controls = p'.controls ∧ p0.controlLaw = p'.controlLaw ∧ p0.ind = p'.ind ∧ p0.omega = none ∧
      p0.quads.map Dyn.name = p'.quads.map Dyn.name ∧ (∀ c ∈ p0.initial, c ∈ p'.initial) ∧ ∀ c ∈ p0.terminal, c ∈ p'.terminal) ∧
    p'.quads = (q.parameters.map fun n => ⟨lamName n, -((hexpr q).diff n)⟩) ∧
    (∀ n ∈ q.parameters, ({ expr := sym (lamName n) + (phi0 q).diff n } : Con) ∈ p'.initial ∧
      ({ expr := sym (lamName n) - (phif q).diff n } : Con) ∈ p'.terminal) := by
  rw [List.append_assoc, List.append_assoc, List.cons_append, List.cons_append, List.nil_append, runSteps_cons] at h
  obtain ⟨qd, hd, h⟩ := bind_ok h
  rw [runSteps_cons] at h
  obtain ⟨q1, h1, h⟩ := bind_ok h
  rw [← List.append_assoc] at h
  obtain ⟨⟨y, hy, hw⟩, k1, k2, -, k4⟩ := within_dualize hs hc hcp hd ch
  have hw1 : (∃ y1, ctl.run S y = .ok y1 ∧ WithinFixed (q.parameters.map fun n => ⟨lamName n, 0⟩) y1 q1) ∧ Passes qd q1 := by
    rcases hctl with rfl | rfl
    · exact within_algebraic hw h1
    · exact within_differential hw h1
  obtain ⟨⟨y1, hy1, hw1⟩, hpass⟩ := hw1
  have hsy : y1.sympified = true := by
    rw [hw1.sympified]
    have e1 : qd.sympified = true := by
      have hd : dualize S .traditional q = .ok qd := hd
      rw [dualize_traditional S q hs hc hcp] at hd
      simp only [Except.ok.injEq] at hd
      rw [← hd]
      exact hs
    rcases hctl with rfl | rfl
    · have h1 : algebraicControl S qd = .ok q1 := h1
      rw [algebraicControl] at h1
      split at h1
      · cases h1
      · split at h1
        · cases h1
        · obtain ⟨_, -, h1⟩ := bind_ok h1
          cases h1
          exact e1
    · obtain ⟨-, -, H, udot, -, -, e⟩ := differential_traditional h1
      rw [e]
      exact e1
  obtain ⟨p0, hp0⟩ := tail_runs (S := S) (norm := norm) hsy
  obtain ⟨t1, t2, t3, t4, t5, t6, t7⟩ := tail_ok h
  obtain ⟨r1, r2, r3, r4, r5, r6, r7⟩ := tail_ok (jac := false) hp0
  have r8 := tail_omega (jac := false) hp0
  have hq : p'.quads = q.parameters.map fun n => ⟨lamName n, -((hexpr q).diff n)⟩ := by
    rw [t6, hpass.quads, hpass.coparameters, k1, k2, hqq, List.nil_append]
  refine ⟨⟨p0, ?_, ?_, ?_, ?_, ?_, ?_, ?_, ?_, ?_⟩, hq, ?_⟩
  · rw [List.append_assoc, List.append_assoc, List.cons_append, List.cons_append, List.nil_append, runSteps_cons]
    change (dualize S .traditional (fixQ ch q) >>= _) = _
    rw [hy]
    change runSteps S (ctl :: _) y = _
    rw [runSteps_cons, hy1, ← List.append_assoc]
    exact hp0
  · rw [r1, t1, hw1.states, hw1.costates, hw1.ind]
  · rw [r4, t4, hw1.controls]
  · rw [r5, t5, hw1.law]
  · rw [r7, t7, hw1.ind]
  · rw [r8, hw1.omega]
  · rw [r6, hw1.quads, hw1.coparameters, List.append_nil, hq, List.map_map, List.map_map]
    rfl
  · intro c hc
    rw [r2] at hc
    rw [t2]
    exact hw1.initial c hc
  · intro c hc
    rw [r3] at hc
    rw [t3]
    exact hw1.terminal c hc
  · intro n hn
    obtain ⟨g1, g2⟩ := k4 n hn
    exact ⟨by rw [t2]; exact hpass.initial _ g1, by rw [t3]; exact hpass.terminal _ g2⟩

end Beluga.Opt
