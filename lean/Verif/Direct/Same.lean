import Verif.Direct.Model
import Verif.Scope.Props

/-! # What the steps of the direct method do with costs and path constraints -/

namespace Beluga.Direct

open Beluga.Sym Beluga.Sym.Expr Beluga.Num Beluga.Opt Beluga.Scope

/-- The second problem is the first with other costs. -/
def Recosted (p q : Prob) : Prop := ∃ a b c, q = { p with costInitial := a, costPath := b, costTerminal := c }

/-- The second problem is the first with other costs, path constraints, and maps between trajectories. -/
def Repathed (p q : Prob) : Prop :=
  ∃ a b c l ch, q = { p with costInitial := a, costPath := b, costTerminal := c, path := l, chain := ch }

theorem Recosted.subsAll {p q : Prob} (h : Recosted p q) (x : Name) (e : Expr) : Recosted (p.subsAll x e) (q.subsAll x e) := by
  obtain ⟨a, b, c, rfl⟩ := h
  exact ⟨_, _, _, rfl⟩

theorem Repathed.subsAll {p q : Prob} (h : Repathed p q) (x : Name) (e : Expr) : Repathed (p.subsAll x e) (q.subsAll x e) := by
  obtain ⟨a, b, c, l, ch, rfl⟩ := h
  exact ⟨_, _, _, _, _, rfl⟩

theorem Recosted.quantities {p q : Prob} (h : Recosted p q) : q.quantities = p.quantities ∧ q.switches = p.switches := by
  obtain ⟨a, b, c, rfl⟩ := h
  exact ⟨rfl, rfl⟩

theorem Repathed.quantities {p q : Prob} (h : Repathed p q) : q.quantities = p.quantities ∧ q.switches = p.switches := by
  obtain ⟨a, b, c, l, ch, rfl⟩ := h
  exact ⟨rfl, rfl⟩

theorem elimLoop_rel {R : Prob → Prob → Prop} (hs : ∀ p q, R p q → ∀ x e, R (p.subsAll x e) (q.subsAll x e))
    (hq : ∀ p q, R p q → q.quantities = p.quantities) {p q : Prob} (h : R p q) : ∀ k, R (elimLoop p k) (elimLoop q k)
  | 0 => h
  | k + 1 => by
    have ih := elimLoop_rel hs hq h k
    rw [elimLoop, elimLoop]
    rw [hq _ _ ih]
    split
    · exact hs _ _ ih _ _
    · exact ih

theorem rashsLoop_rel {R : Prob → Prob → Prop} (hs : ∀ p q, R p q → ∀ x e, R (p.subsAll x e) (q.subsAll x e))
    (hq : ∀ p q, R p q → q.switches = p.switches) {p q : Prob} (h : R p q) : ∀ k, R (rashsLoop p k) (rashsLoop q k)
  | 0 => h
  | k + 1 => by
    have ih := rashsLoop_rel hs hq h k
    rw [rashsLoop, rashsLoop]
    rw [hq _ _ ih]
    split
    · exact hs _ _ ih _ _
    · exact ih

/-! ### Preprocessing -/

theorem preprocess_recosted {p q p' : Prob} (h : Recosted p q) (hp : preprocess p = .ok p') : ∃ q', preprocess q = .ok q' ∧ Recosted p' q' := by
  obtain ⟨a, b, c, rfl⟩ := h
  rw [preprocess] at hp ⊢
  obtain ⟨p0, h0, hp⟩ := bind_ok hp
  rw [Prob.sympify] at h0 ⊢
  by_cases hl : p.states.length < 1
  · rw [if_pos hl] at h0; cases h0
  · rw [if_neg hl] at h0 ⊢
    cases h0
    cases hp
    exact ⟨_, rfl, elimLoop_rel (fun _ _ h => h.subsAll) (fun _ _ h => h.quantities.1) ⟨_, _, _, rfl⟩ _⟩

theorem preprocess_repathed {p q p' : Prob} (h : Repathed p q) (hp : preprocess p = .ok p') : ∃ q', preprocess q = .ok q' ∧ Repathed p' q' := by
  obtain ⟨a, b, c, l, ch, rfl⟩ := h
  rw [preprocess] at hp ⊢
  obtain ⟨p0, h0, hp⟩ := bind_ok hp
  rw [Prob.sympify] at h0 ⊢
  by_cases hl : p.states.length < 1
  · rw [if_pos hl] at h0; cases h0
  · rw [if_neg hl] at h0 ⊢
    cases h0
    cases hp
    exact ⟨_, rfl, elimLoop_rel (fun _ _ h => h.subsAll) (fun _ _ h => h.quantities.1) ⟨_, _, _, _, _, rfl⟩ _⟩

/-! ### The steps -/

theorem shift_recosted {p q p' : Prob} (h : Recosted p q) (hp : momentumShift p = .ok p') : ∃ q', momentumShift q = .ok q' ∧ Recosted p' q' := by
  obtain ⟨a, b, c, rfl⟩ := h
  rw [momentumShift] at hp ⊢
  by_cases hs : (!p.sympified) = true
  · rw [if_pos hs] at hp; cases hp
  · rw [if_neg hs] at hp ⊢
    cases hp
    exact ⟨_, rfl, _, _, _, rfl⟩

theorem shift_repathed {p q p' : Prob} (h : Repathed p q) (hp : momentumShift p = .ok p') : ∃ q', momentumShift q = .ok q' ∧ Repathed p' q' := by
  obtain ⟨a, b, c, l, ch, rfl⟩ := h
  rw [momentumShift] at hp ⊢
  by_cases hs : (!p.sympified) = true
  · rw [if_pos hs] at hp; cases hp
  · rw [if_neg hs] at hp ⊢
    cases hp
    exact ⟨_, rfl, _, _, _, _, _, rfl⟩

theorem rashs_recosted {p q p' : Prob} (h : Recosted p q) (hp : rashs p = .ok p') : ∃ q', rashs q = .ok q' ∧ Recosted p' q' := by
  have hq := h.quantities.2
  rw [rashs] at hp ⊢
  by_cases hs : (!p.sympified) = true
  · rw [if_pos hs] at hp; cases hp
  · rw [if_neg hs] at hp
    have hs' : ¬ (!q.sympified) = true := by obtain ⟨a, b, c, rfl⟩ := h; exact hs
    rw [if_neg hs']
    cases hp
    refine ⟨_, rfl, ?_⟩
    rw [hq]
    exact rashsLoop_rel (fun _ _ h => h.subsAll) (fun _ _ h => h.quantities.2) h _

theorem rashs_repathed {p q p' : Prob} (h : Repathed p q) (hp : rashs p = .ok p') : ∃ q', rashs q = .ok q' ∧ Repathed p' q' := by
  have hq := h.quantities.2
  rw [rashs] at hp ⊢
  by_cases hs : (!p.sympified) = true
  · rw [if_pos hs] at hp; cases hp
  · rw [if_neg hs] at hp
    have hs' : ¬ (!q.sympified) = true := by obtain ⟨a, b, c, l, ch, rfl⟩ := h; exact hs
    rw [if_neg hs']
    cases hp
    refine ⟨_, rfl, ?_⟩
    rw [hq]
    exact rashsLoop_rel (fun _ _ h => h.subsAll) (fun _ _ h => h.quantities.2) h _

theorem time_recosted {p q p' : Prob} (h : Recosted p q) (hp : normalizeTime p = .ok p') : ∃ q', normalizeTime q = .ok q' ∧ Recosted p' q' := by
  obtain ⟨a, b, c, rfl⟩ := h
  rw [normalizeTime] at hp ⊢
  by_cases hs : (!p.sympified) = true
  · rw [if_pos hs] at hp; cases hp
  · rw [if_neg hs] at hp ⊢
    cases hp
    exact ⟨_, rfl, _, _, _, rfl⟩

theorem time_repathed {p q p' : Prob} (h : Repathed p q) (hp : normalizeTime p = .ok p') : ∃ q', normalizeTime q = .ok q' ∧ Repathed p' q' := by
  obtain ⟨a, b, c, l, ch, rfl⟩ := h
  rw [normalizeTime] at hp ⊢
  by_cases hs : (!p.sympified) = true
  · rw [if_pos hs] at hp; cases hp
  · rw [if_neg hs] at hp ⊢
    cases hp
    exact ⟨_, rfl, _, _, _, _, _, rfl⟩

theorem eps_recosted {p q p' : Prob} (h : Recosted p q) (hp : epsTrig p = .ok p') : ∃ q', epsTrig q = .ok q' ∧ Recosted p' q' := by
  obtain ⟨a, b, c, rfl⟩ := h
  rw [epsTrig] at hp ⊢
  by_cases hs : (!p.sympified) = true
  · rw [if_pos hs] at hp; cases hp
  · rw [if_neg hs] at hp ⊢
    dsimp only
    cases h1 : p.path.findIdx? fun c => c.method = .epstrig with
    | none => rw [h1] at hp; cases hp
    | some i =>
      rw [h1] at hp
      dsimp only at hp ⊢
      cases h2 : p.path[i]? with
      | none => rw [h2] at hp; cases hp
      | some d =>
        rw [h2] at hp
        dsimp only at hp ⊢
        cases h3 : p.controls.findIdx? fun u => d.expr = sym u with
        | none => rw [h3] at hp; cases hp
        | some k =>
          rw [h3] at hp
          dsimp only at hp ⊢
          cases h4 : p.controls[k]? with
          | none => rw [h4] at hp; cases hp
          | some u =>
            cases h5 : d.activator with
            | none => rw [h4, h5] at hp; cases hp
            | some ac =>
              cases h6 : d.lower with
              | none => rw [h4, h5, h6] at hp; cases hp
              | some lo =>
                cases h7 : d.upper with
                | none => rw [h4, h5, h6, h7] at hp; cases hp
                | some hi =>
                  rw [h4, h5, h6, h7] at hp
                  cases hp
                  exact ⟨_, rfl, _, _, _, rfl⟩

theorem utm_recosted {p q p' : Prob} (h : Recosted p q) (hp : utm p = .ok p') : ∃ q', utm q = .ok q' ∧ Recosted p' q' := by
  obtain ⟨a, b, c, rfl⟩ := h
  rw [utm] at hp ⊢
  by_cases hs : (!p.sympified) = true
  · rw [if_pos hs] at hp; cases hp
  · rw [if_neg hs] at hp ⊢
    have e1 : utmFind { p with costInitial := a, costPath := b, costTerminal := c } = utmFind p := rfl
    have e2 : ∀ loc, Prob.conList { p with costInitial := a, costPath := b, costTerminal := c } loc = p.conList loc := by
      intro loc
      match loc with
      | 0 => rfl
      | 1 => rfl
      | _ + 2 => rfl
    rw [e1]
    cases h1 : utmFind p with
    | none => rw [h1] at hp; cases hp
    | some li =>
      obtain ⟨loc, i⟩ := li
      rw [h1] at hp
      dsimp only at hp ⊢
      rw [e2]
      cases h2 : (p.conList loc)[i]? with
      | none => rw [h2] at hp; cases hp
      | some d =>
        rw [h2] at hp
        dsimp only at hp ⊢
        cases h5 : d.activator with
        | none => rw [h5] at hp; cases hp
        | some ac =>
          cases h6 : d.lower with
          | none => rw [h5, h6] at hp; cases hp
          | some lo =>
            cases h7 : d.upper with
            | none => rw [h5, h6, h7] at hp; cases hp
            | some hi =>
              rw [h5, h6, h7] at hp
              dsimp only at hp ⊢
              by_cases hk : (p.constants.any fun k => ac = sym k) = true
              · rw [if_pos hk] at hp ⊢
                cases hp
                exact ⟨_, rfl, _, _, _, rfl⟩
              · rw [if_neg hk] at hp
                cases hp

theorem jacobians_eq {p p' : Prob} (h : analyticalJacobians p = .ok p') (q : Prob)
    (hq : q.states = p.states ∧ q.initial = p.initial ∧ q.terminal = p.terminal ∧ q.parameters = p.parameters ∧
      q.constraintParams = p.constraintParams ∧ q.quads = p.quads) :
    p' = { p with dfdy := p'.dfdy, dfdp := p'.dfdp } ∧ analyticalJacobians q = .ok { q with dfdy := p'.dfdy, dfdp := p'.dfdp } := by
  obtain ⟨e1, e2, e3, e4, e5, e6⟩ := hq
  rw [analyticalJacobians] at h ⊢
  rw [e1, e2, e3, e4, e5, e6]
  dsimp only at h ⊢
  obtain ⟨dfdy, h1, h⟩ := bind_ok h
  obtain ⟨x2, h2, h⟩ := bind_ok h
  obtain ⟨x3, h3, h⟩ := bind_ok h
  rw [h1, h2, h3]
  simp only [Num.ok_bind] at h ⊢
  by_cases hp : (p.parameters ++ p.constraintParams).length > 0
  · rw [if_pos hp] at h ⊢
    obtain ⟨dfdp, h4, h⟩ := bind_ok h
    obtain ⟨y1, g1, h⟩ := bind_ok h
    obtain ⟨y2, g2, h⟩ := bind_ok h
    rw [h4, g1, g2]
    simp only [pure_bind] at h ⊢
    by_cases hq : p.quads.length > 0
    · rw [if_pos hq] at h
      obtain ⟨x5, h5, h⟩ := bind_ok h
      obtain ⟨x6, h6, h⟩ := bind_ok h
      cases h
      simp only [Num.ok_bind, if_pos hq, h5, h6]
      exact ⟨trivial, trivial⟩
    · rw [if_neg hq] at h
      cases h
      simp only [Num.ok_bind, if_neg hq]
      exact ⟨trivial, trivial⟩
  · rw [if_neg hp] at h ⊢
    by_cases hq : p.quads.length > 0
    · simp only [pure_bind, if_pos hq] at h ⊢
      obtain ⟨x5, h5, h⟩ := bind_ok h
      obtain ⟨x6, h6, h⟩ := bind_ok h
      cases h
      simp only [Num.ok_bind, h5, h6]
      exact ⟨trivial, trivial⟩
    · simp only [pure_bind, if_neg hq] at h ⊢
      cases h
      exact ⟨rfl, rfl⟩

theorem jacobians_recosted {p q p' : Prob} (h : Recosted p q) (hp : analyticalJacobians p = .ok p') :
    ∃ q', analyticalJacobians q = .ok q' ∧ Recosted p' q' := by
  obtain ⟨a, b, c, rfl⟩ := h
  obtain ⟨h1, h2⟩ := jacobians_eq hp { p with costInitial := a, costPath := b, costTerminal := c } ⟨rfl, rfl, rfl, rfl, rfl, rfl⟩
  refine ⟨_, h2, a, b, c, ?_⟩
  rw [h1]

theorem jacobians_repathed {p q p' : Prob} (h : Repathed p q) (hp : analyticalJacobians p = .ok p') :
    ∃ q', analyticalJacobians q = .ok q' ∧ Repathed p' q' := by
  obtain ⟨a, b, c, l, ch, rfl⟩ := h
  obtain ⟨h1, h2⟩ := jacobians_eq hp { p with costInitial := a, costPath := b, costTerminal := c, path := l, chain := ch }
    ⟨rfl, rfl, rfl, rfl, rfl, rfl⟩
  refine ⟨_, h2, a, b, c, l, ch, ?_⟩
  rw [h1]

end Beluga.Direct
