import Verif.Extremal.Props

/-! # Parameters taken as constants: the functors before `Dualize` do the same -/

namespace Beluga.Opt

open Beluga.Sym Beluga.Sym.Expr

/-- The problem with the parameters taken as constants.  The tags in the chain may be others, they mention both. -/
def fixParams (ps : List Name) (ch : List MapTag) (p : Prob) : Prob :=
  { p with parameters := [], constants := p.constants ++ ps, chain := ch }

/-- A functor that keeps the parameters and does the same if they are taken as constants. -/
def Blind (f : Prob → Py Prob) : Prop :=
  ∀ p p1 ps ch, f p = .ok p1 → p1.parameters = p.parameters ∧ ∃ ch', f (fixParams ps ch p) = .ok (fixParams ps ch' p1)

theorem blind_momentumShift : Blind momentumShift := by
  intro p p1 ps ch h
  rw [momentumShift] at h
  split at h
  · cases h
  · next hs =>
    cases h
    refine ⟨rfl, ch ++ [.momentumShift ((p.states ++ [(⟨p.ind, 1⟩ : Dyn)]).length - 1)], ?_⟩
    have hs' : ¬ (!(fixParams ps ch p).sympified) = true := hs
    rw [momentumShift, if_neg hs']
    rfl

theorem blind_epsTrig : Blind epsTrig := by
  intro p p1 ps ch h
  have key : ∀ (c : Con) (i k : Nat) (u : Name) (a lo hi : Expr),
      p.path.findIdx? (fun c => c.method = .epstrig) = some i → p.path[i]? = some c →
      p.controls.findIdx? (fun u => c.expr = sym u) = some k → p.controls[k]? = some u → c.activator = some a →
      c.lower = some lo → c.upper = some hi → p.sympified = true → p1.parameters = p.parameters ∧
        ∃ ch', epsTrig (fixParams ps ch p) = .ok (fixParams ps ch' p1) := by
    intro c i k u a lo hi h1 h2 h3 h4 h5 h6 h7 h0
    rw [epsTrig, if_neg (by simp [h0]), h1] at h
    simp only [h2, h3, h4, h5, h6, h7, Except.ok.injEq] at h
    subst h
    refine ⟨rfl, ?_⟩
    rw [epsTrig, if_neg (by simp [fixParams, h0])]
    have e1 : (fixParams ps ch p).path = p.path := rfl
    have e2 : (fixParams ps ch p).controls = p.controls := rfl
    rw [e1, h1]
    simp only [h2, e2, h3, h4, h5, h6, h7]
    exact ⟨_, rfl⟩
  rw [epsTrig] at h
  split at h
  · cases h
  · next h0 =>
    cases h1 : p.path.findIdx? (fun c => c.method = .epstrig) with
    | none => rw [h1] at h; cases h
    | some i =>
      rw [h1] at h
      cases h2 : p.path[i]? with
      | none => simp only [h2] at h; cases h
      | some c =>
        simp only [h2] at h
        cases h3 : p.controls.findIdx? (fun u => c.expr = sym u) with
        | none => simp only [h3] at h; cases h
        | some k =>
          simp only [h3] at h
          split at h
          · next u a lo hi h4 h5 h6 h7 => exact key c i k u a lo hi h1 h2 h3 h4 h5 h6 h7 (by simpa using h0)
          · cases h

theorem blind_utm : Blind utm := by
  intro p p1 ps ch h
  rw [utm] at h
  split at h
  · cases h
  · next h0 =>
    cases h1 : utmFind p with
    | none => rw [h1] at h; cases h
    | some li =>
      obtain ⟨loc, i⟩ := li
      rw [h1] at h
      simp only at h
      cases h2 : (p.conList loc)[i]? with
      | none => simp only [h2] at h; cases h
      | some c =>
        simp only [h2] at h
        split at h
        · next a lo hi h3 h4 h5 =>
          split at h
          · next hk =>
            cases h
            refine ⟨rfl, ch ++ [.identity], ?_⟩
            have e1 : utmFind (fixParams ps ch p) = utmFind p := rfl
            have e2 : (fixParams ps ch p).conList loc = p.conList loc := by
              match loc with
              | 0 => rfl
              | 1 => rfl
              | n + 2 => rfl
            have hk' : ((fixParams ps ch p).constants.any fun k => decide (a = sym k)) = true := by
              simp only [fixParams, List.any_append, hk, Bool.true_or]
            rw [utm, if_neg (by simpa [fixParams] using h0), e1, h1]
            simp only [e2, h2, h3, h4, h5]
            rw [if_pos hk']
            rfl
          · cases h
        · cases h

theorem rashsLoop_fix (ps : List Name) (ch : List MapTag) (p : Prob) :
    ∀ n, rashsLoop (fixParams ps ch p) n = fixParams ps ch (rashsLoop p n) ∧ (rashsLoop p n).parameters = p.parameters
  | 0 => ⟨rfl, rfl⟩
  | n + 1 => by
    obtain ⟨h1, h2⟩ := rashsLoop_fix ps ch p n
    have e : (fixParams ps ch (rashsLoop p n)).switches = (rashsLoop p n).switches := rfl
    rw [rashsLoop, rashsLoop, h1]
    simp only [e]
    cases (rashsLoop p n).switches[n]? with
    | none => exact ⟨rfl, h2⟩
    | some s => exact ⟨rfl, h2⟩

theorem blind_rashs : Blind rashs := by
  intro p p1 ps ch h
  rw [rashs] at h
  split at h
  · cases h
  · next hs =>
    cases h
    obtain ⟨h1, h2⟩ := rashsLoop_fix ps ch p p.switches.length
    refine ⟨h2, ch, ?_⟩
    have hs' : ¬ (!(fixParams ps ch p).sympified) = true := hs
    rw [rashs, if_neg hs', ← h1]
    rfl

theorem elimLoop_fix (ps : List Name) (ch : List MapTag) (p : Prob) :
    ∀ n, elimLoop (fixParams ps ch p) n = fixParams ps ch (elimLoop p n) ∧ (elimLoop p n).parameters = p.parameters
  | 0 => ⟨rfl, rfl⟩
  | n + 1 => by
    obtain ⟨h1, h2⟩ := elimLoop_fix ps ch p n
    have e : (fixParams ps ch (elimLoop p n)).quantities = (elimLoop p n).quantities := rfl
    rw [elimLoop, elimLoop, h1]
    simp only [e]
    cases (elimLoop p n).quantities[n]? with
    | none => exact ⟨rfl, h2⟩
    | some s => exact ⟨rfl, h2⟩

theorem blind_preprocess : Blind preprocess := by
  intro p p1 ps ch h
  rw [preprocess] at h
  obtain ⟨p0, h0, h⟩ := bind_ok h
  rw [Prob.sympify] at h0
  split at h0
  · cases h0
  · next hl =>
    cases h0
    rw [applyQuantities, if_neg (by simp)] at h
    cases h
    refine ⟨(elimLoop_fix ps ch _ _).2, ch, ?_⟩
    have hl' : ¬ (fixParams ps ch p).states.length < 1 := hl
    rw [preprocess, Prob.sympify, if_neg hl']
    change applyQuantities (fixParams ps ch (sym0 p)) = _
    rw [applyQuantities, if_neg (by simp [fixParams]), ← (elimLoop_fix ps ch _ _).1]
    rfl

theorem blind_runSteps {S : Sympy} : ∀ {ss : List Step}, (∀ s ∈ ss, Blind (s.run S)) → Blind (runSteps S ss)
  | [], _, p, p1, ps, ch, h => by
    cases h
    exact ⟨rfl, ch, rfl⟩
  | s :: ss, hss, p, p1, ps, ch, h => by
    rw [runSteps_cons] at h
    obtain ⟨p2, h2, h⟩ := bind_ok h
    obtain ⟨e2, ch2, g2⟩ := hss s (by simp) p p2 ps ch h2
    obtain ⟨e1, ch1, g1⟩ := blind_runSteps (fun s hs => hss s (by simp [hs])) p2 p1 ps ch2 h
    refine ⟨e1.trans e2, ch1, ?_⟩
    rw [runSteps_cons, g2]
    exact g1

theorem ineqSteps_mem {cons : List Con} {ss : List Step} (h : ineqSteps cons = .ok ss) : ∀ s ∈ ss, s = .epsTrig ∨ s = .utm := by
  rw [ineqSteps] at h
  intro s hs
  obtain ⟨c, -, hc⟩ := forall₂_right (mapM_pairs h) s hs
  split at hc
  · cases hc; exact Or.inl rfl
  · cases hc; exact Or.inr rfl
  · cases hc

/-- The functors before `Dualize` keep the parameters and do the same if they are taken as constants. -/
theorem blind_primal (S : Sympy) : Blind (primal S) := by
  intro p q ps ch h
  rw [primal] at h
  obtain ⟨p1, h1, h⟩ := bind_ok h
  obtain ⟨ineq, h2, h⟩ := bind_ok h
  obtain ⟨e1, ch1, g1⟩ := blind_preprocess p p1 ps ch h1
  have hb : Blind (runSteps S (.momentumShift :: (ineq ++ if p1.switches.length > 0 then [.rashs] else []))) := by
    refine blind_runSteps fun s hs => ?_
    simp only [List.mem_cons, List.mem_append] at hs
    rcases hs with rfl | hs | hs
    · exact blind_momentumShift
    · rcases ineqSteps_mem h2 s hs with rfl | rfl
      · exact blind_epsTrig
      · exact blind_utm
    · split at hs
      · simp only [List.mem_singleton] at hs
        subst hs
        exact blind_rashs
      · cases hs
  obtain ⟨e2, ch2, g2⟩ := hb p1 q ps ch1 h
  refine ⟨e2.trans e1, ch2, ?_⟩
  rw [primal, g1]
  change (ineqSteps (p1.initial ++ p1.path ++ p1.terminal) >>= _) = _
  rw [h2]
  exact g2

end Beluga.Opt
