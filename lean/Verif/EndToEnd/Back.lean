import Verif.EndToEnd.Agree

/-! # The whole chain of mappers, backwards -/

namespace Beluga.E2E

open Beluga.Sym Beluga.Sym.Expr Beluga.Num Beluga.Map Beluga.Opt Beluga.Rep

variable {S : Sympy} {O : TrigOps ℝ} {rule : List ℝ → List ℝ → ℝ} {I : Interp ℝ}

theorem invSteps_cons {step : Step} {steps : List Step} {p : Prob} {s s' : Sol ℝ}
    (h : invSteps S O rule I (step :: steps) p s = .ok s') :
    ∃ p1 s1, step.run S p = .ok p1 ∧ invSteps S O rule I steps p1 s = .ok s1 ∧ ∀ tags, p1.chain = p.chain ++ tags →
      invTags O rule I p p1 tags s1 = .ok s' := by
  rw [invSteps] at h
  obtain ⟨p1, h1, h⟩ := bind_ok h
  obtain ⟨s1, h2, h⟩ := bind_ok h
  refine ⟨p1, s1, h1, h2, fun tags ht => ?_⟩
  have : newTags p p1 = tags := by rw [newTags, ht, List.drop_left']; rfl
  rw [this] at h
  exact h

/-- Functors without a mapper. -/
theorem invSteps_jac {jac : Bool} {p : Prob} {s s' : Sol ℝ}
    (h : invSteps S O rule I (if jac then [.jacobians] else []) p s = .ok s') : s' = s := by
  cases jac
  · cases h; rfl
  · simp only [if_true] at h
    obtain ⟨p1, s1, h1, h2, h3⟩ := invSteps_cons h
    cases h2
    have hj : analyticalJacobians p = .ok p1 := h1
    obtain ⟨_, _, rfl⟩ := jacobians_ok hj
    have := h3 [] (by simp)
    cases this
    rfl

theorem rashs_chain {p p' : Prob} (h : rashs p = .ok p') : p'.chain = p.chain := by
  rw [rashs] at h
  split at h
  · cases h
  · cases h
    generalize p.switches.length = n
    induction n with
    | zero => rfl
    | succ n ih =>
      rw [rashsLoop]
      split
      · exact ih
      · exact ih

theorem invSteps_rashs {c : Prop} [Decidable c] {p : Prob} {s s' : Sol ℝ}
    (h : invSteps S O rule I (if c then [.rashs] else []) p s = .ok s') : s' = s := by
  split at h
  · obtain ⟨p1, s1, h1, h2, h3⟩ := invSteps_cons h
    cases h2
    have hr : rashs p = .ok p1 := h1
    have := h3 [] (by rw [rashs_chain hr, List.append_nil])
    cases this
    rfl
  · cases h; rfl

/-- More about the functors after the control law. -/
theorem tail_more {norm jac : Bool} {q1 p' : Prob}
    (h : runSteps S ((if norm then [Step.normalizeTime] else []) ++ [.squash] ++ (if jac then [.jacobians] else [])) q1 = .ok p') :
    sts p' = sts q1 ++ q1.costates.map Dyn.name ∧ p'.parameters = q1.parameters ++ (if norm then ["_delta" ++ q1.ind] else []) ∧
      p'.constants = q1.constants ∧ p'.hamiltonian = q1.hamiltonian := by
  rw [List.append_assoc, runSteps_append] at h
  obtain ⟨q2, h2, h⟩ := bind_ok h
  rw [runSteps_append] at h
  obtain ⟨q3, h3, h4⟩ := bind_ok h
  have hj : p'.states = q3.states ∧ p'.parameters = q3.parameters ∧ p'.constants = q3.constants ∧ p'.hamiltonian = q3.hamiltonian := by
    cases jac
    · cases h4
      exact ⟨rfl, rfl, rfl, rfl⟩
    · simp only [if_true] at h4
      rw [runSteps_cons] at h4
      obtain ⟨r, hr, h4⟩ := bind_ok h4
      cases h4
      obtain ⟨_, _, rfl⟩ := jacobians_ok hr
      exact ⟨rfl, rfl, rfl, rfl⟩
  have hsq : q3.states = q2.states ++ q2.costates ∧ q3.parameters = q2.parameters ∧ q3.constants = q2.constants ∧
      q3.hamiltonian = q2.hamiltonian := by
    rw [runSteps_cons] at h3
    obtain ⟨r, hr, h3⟩ := bind_ok h3
    cases h3
    cases hr
    exact ⟨rfl, rfl, rfl, rfl⟩
  obtain ⟨j1, j2, j3, j4⟩ := hj
  obtain ⟨k1, k2, k3, k4⟩ := hsq
  rw [sts, j1, j2, j3, j4, k1, k2, k3, k4]
  cases norm
  · cases h2
    simp [sts]
  · simp only [if_true] at h2
    rw [runSteps_cons] at h2
    obtain ⟨r, hr, h2⟩ := bind_ok h2
    cases h2
    have := normalizeTime_ok hr
    rw [this]
    simp [sts, List.map_map, Function.comp_def]

/-- Undoing `SquashToBVP` and `NormalizeTime`. -/
theorem tail_inv {norm jac : Bool} {q1 : Prob} (hpar : q1.parameters = []) {ρ : ℝ → Env} {τs : List ℝ} {s s' : Sol ℝ} {c : ℝ}
    (hy : s.y = tab (sts q1 ++ q1.costates.map Dyn.name) ρ τs) (ht : s.t = τs) (hd : s.dyn = if norm then [c] else [])
    (hc : norm = false → c = 1)
    (h : invSteps S O rule I ((if norm then [Step.normalizeTime] else []) ++ [.squash] ++ (if jac then [.jacobians] else [])) q1 s =
      .ok s') :
    ∃ nd, s' = { s with
      t := τs.map fun t => t * c
      dyn := []
      y := tab (sts q1) ρ τs
      dual := tab (q1.costates.map Dyn.name) ρ τs
      nondyn := nd } := by
  rw [List.append_assoc] at h
  obtain ⟨q2, s1, h1, h2, h3⟩ := invSteps_append h
  obtain ⟨q3, s2, h4, h5, h6⟩ := invSteps_append h2
  have := invSteps_jac h5
  subst this
  have hq2 : sts q2 = sts q1 ∧ q2.costates.map Dyn.name = q1.costates.map Dyn.name := by
    cases norm
    · cases h1
      exact ⟨rfl, rfl⟩
    · simp only [if_true] at h1
      rw [runSteps_cons] at h1
      obtain ⟨r, hr, h1⟩ := bind_ok h1
      cases h1
      have := normalizeTime_ok hr
      rw [this]
      simp [sts, List.map_map, Function.comp_def]
  obtain ⟨q4, s3, g1, g2, g3⟩ := invSteps_cons h6
  cases g2
  cases g1
  have g3 := g3 _ rfl
  have hsl : q2.states.length = (sts q2).length := by simp [sts]
  have hcl : q2.costates.length = (q2.costates.map Dyn.name).length := by simp
  rw [hsl, hcl, hq2.1, hq2.2] at g3
  have g4 := squash_inv (O := O) hy g3
  cases norm
  · cases h3
    refine ⟨s'.nondyn, ?_⟩
    rw [g4, hc rfl]
    have hd : s2.dyn = [] := hd
    simp only [mul_one, List.map_id', ht, hd]
  · simp only [if_true] at h3 hd
    obtain ⟨q5, s5, k1, k2, k3⟩ := invSteps_cons h3
    cases k2
    have k1 : normalizeTime q1 = .ok q5 := k1
    have k3 := k3 [.normalizeTime q1.parameters.length] (by rw [normalizeTime_ok k1])
    rw [hpar] at k3
    have := normalizeTime_inv (O := O) (x := c) (by rw [g4]; exact hd) k3
    refine ⟨s'.nondyn, ?_⟩
    rw [this, g4]
    simp only [ht]

/-- Undoing the control law: the controls are those of the boundary value problem. -/
theorem algebraic_inv {U : Name → Nat → ℝ → ℝ} {q1 p' : Prob} (hlaw : p'.controlLaw = q1.controlLaw) (hH : p'.hamiltonian = q1.hamiltonian)
    (hc : p'.controls = q1.controls) (hs : sts p' = sts q1 ++ q1.costates.map Dyn.name) (hk : p'.constants = q1.constants)
    (hp : q1.parameters = []) (hind : q1.ind ∉ sts p' ++ p'.controls ++ p'.parameters ++ p'.constants)
    (hps : ∀ x ∈ p'.parameters, x ∉ p'.constants) {before : Prob} {ρ : ℝ → Env} {τs : List ℝ} (hne : τs ≠ []) {T : ℝ → ℝ} {pr k : List ℝ}
    (hu : ∀ τ ∈ τs, ∃ o, computeU (real U) p' ((sts p').map (ρ τ)) pr k = .ok o)
    (hr : ∀ τ ∈ τs, ∀ u, computeU (real U) p' ((sts p').map (ρ τ)) pr k = .ok (some u) → p'.controls.map (ρ τ) = u)
    {s s' : Sol ℝ} (hy : s.y = tab (sts q1) ρ τs) (hd : s.dual = tab (q1.costates.map Dyn.name) ρ τs) (ht : s.t = τs.map T)
    (hdyn : s.dyn = []) (hconst : s.const = k) (h : invTag O rule (real U) before q1 .algebraic s = .ok s') :
    q1.controlLaw ≠ [] ∧ s' = { s with u := tab q1.controls ρ τs } := by
  rw [invTag] at h
  obtain ⟨r, h1, h⟩ := bind_ok h
  cases h
  have hz : s.t.zip (s.y.rowList.zip s.dual.rowList) =
      τs.map fun τ => (T τ, (sts q1).map (ρ τ), (q1.costates.map Dyn.name).map (ρ τ)) := by
    rw [ht, hy, hd]
    simp only [tab, Arr.rowList]
    rw [List.zip_map', List.zip_map']
  rw [hz, List.mapM_map, hdyn, hconst] at h1
  have hl : q1.controlLaw ≠ [] := by
    intro he
    obtain ⟨τ, τs, rfl⟩ := List.exists_cons_of_ne_nil hne
    rw [List.mapM_cons] at h1
    obtain ⟨v, h2, -⟩ := bind_ok h1
    have h2 : mapperU (real U) q1 (T τ) _ _ [] k = .ok v := h2
    rw [mapperU, he] at h2
    cases h2
  have hv := mapM_val (g := fun τ => q1.controls.map (ρ τ)) h1 (by
    intro τ hτ w hw
    obtain ⟨o, ho⟩ := hu τ hτ
    cases o with
    | none => exact absurd (hlaw ▸ computeU_none ho) hl
    | some u =>
      rw [← hc, hr τ hτ u ho]
      exact mapperU_agrees hlaw hH hc hs hk hp hind hps ho hw)
  refine ⟨hl, ?_⟩
  have hrn : r ≠ [] := by
    rw [hv]
    simpa using hne
  rw [if_neg hrn, hv]
  rfl

/-- Undoing the functors for two-sided constraints. -/
theorem ineq_inv {U : Name → Nat → ℝ → ℝ} {p0 : Prob} (hO : O.sin = Real.sin) (hnd : p0.controls.Nodup)
    (hE0 : ∀ s ∈ epsControls p0.path, s ∈ p0.controls) (hpar : p0.parameters = []) {σ : ℝ → Env} {τs : List ℝ} {T : ℝ → ℝ} {k : List ℝ}
    (hσ : ∀ τ ∈ τs, TrigEnv p0 U (σ τ)) (hT : ∀ τ ∈ τs, σ τ p0.ind = T τ) (hk : ∀ τ ∈ τs, p0.constants.map (σ τ) = k) :
    ∀ (steps : List Step) (p p' : Prob) (f : Expr → Expr) (s s' : Sol ℝ), (∀ st ∈ steps, st = .epsTrig ∨ st = .utm) → RegInv p0 p f →
      runSteps S steps p = .ok p' → s.t = τs.map T → s.y = tab (sts p0) σ τs → s.u = tab p'.controls σ τs → s.dyn = [] →
      s.const = k → invSteps S O rule (real U) steps p s = .ok s' → s' = { s with u := tab p.controls σ τs }
  | [], p, p', f, s, s', _, _, h, _, _, hu, _, _, h' => by
    cases h
    cases h'
    cases s
    simp only at hu
    subst hu
    rfl
  | st :: steps, p, p', f, s, s', hst, hi, h, ht, hy, hu, hd, hc, h' => by
    rw [runSteps_cons] at h
    obtain ⟨p1, h1, h2⟩ := bind_ok h
    obtain ⟨p1', s1, h3, h4, h5⟩ := invSteps_cons h'
    rw [h1] at h3
    cases h3
    rcases hst st (by simp) with rfl | rfl
    · obtain ⟨f1, hi1, -, -⟩ := regInv_eps hnd hE0 hi h1
      have ih := ineq_inv hO hnd hE0 hpar hσ hT hk steps p1 p' f1 s s1 (fun s hs' => hst s (by simp [hs'])) hi1 h2 ht hy hu hd hc h4
      have b1 : sts p = sts p0 := by
        have := congrArg Prob.states hi.rest
        have : p.states = p0.states.map fun d => ⟨d.name, f d.eom⟩ := this
        rw [sts, sts, this, List.map_map]
        rfl
      have b2 : p.ind = p0.ind := by have := congrArg Prob.ind hi.rest; exact this
      have b3 : p.parameters = p0.parameters := by have := congrArg Prob.parameters hi.rest; exact this
      have b4 : p.constants = p0.constants := by have := congrArg Prob.constants hi.rest; exact this
      have h1 : epsTrig p = .ok p1 := h1
      obtain ⟨i, c, kk, u, a, lo, hi', hcm, hm, he, hk', ha, hlo, hhi, rfl⟩ := epsTrig_inv h1
      have h5 := h5 _ rfl
      have h5 := invTags_one h5
      rw [invTag, ih] at h5
      have hn : (({ p with
          path := p.path.eraseIdx i, controls := p.controls.set kk (trigName u),
          costPath := p.costPath + (-a) * fn .cos (sym (trigName u)) } : Prob).subsAll u (trigExpr u lo hi')).states.map Dyn.name =
          sts p0 := by
        rw [← b1]
        simp only [Prob.subsAll, sts, List.map_map]
        rfl
      simp only [hn] at h5
      rw [epsInv] at h5
      have h5 : (do
          let r' ← epsLoop kk (epsFunc O (real U) lo hi' [[p.ind], sts p0, p.parameters, p.constants] s.dyn s.const) s.t s.y.rowList
            (τs.map fun τ => (p.controls.set kk (trigName u)).map (σ τ))
          (.ok { s with u := .rows (p.controls.set kk (trigName u)).length r' } : Py (Sol ℝ))) = .ok s' := h5
      obtain ⟨r, h6, h5⟩ := bind_ok h5
      cases h5
      rw [ht, hy, hd, hc, b2, b3, b4, hpar] at h6
      have h6 : epsLoop kk _ (τs.map T) (τs.map fun τ => (sts p0).map (σ τ))
        (τs.map fun τ => (p.controls.set kk (trigName u)).map (σ τ)) = .ok r := h6
      have := epsLoop_val hk' (by
        intro τ hτ w hw
        have hw : epsFunc O (real U) lo hi' _ [] k (σ τ (trigName u)) (T τ) ((sts p0).map (σ τ)) = .ok w := hw
        rw [epsFunc] at hw
        obtain ⟨l, w1, hw⟩ := bind_ok hw
        obtain ⟨hh, w2, hw⟩ := bind_ok hw
        cases hw
        have hargs : ∀ av ∈ ([[p0.ind], sts p0, [], p0.constants] : List (List Name)).zip [[T τ], (sts p0).map (σ τ), [], k],
            av.1.length = av.2.length → av.1.map (σ τ) = av.2 := by
          intro av hav _
          simp only [List.zip_cons_cons, List.mem_cons, List.zip_nil_left, List.not_mem_nil, or_false] at hav
          rcases hav with rfl | rfl | rfl | rfl
          · simp [hT τ hτ]
          · rfl
          · rfl
          · exact hk τ hτ
        rw [lambdify_val w1 hargs, lambdify_val w2 hargs, epsBackward, hO]
        exact (hi.env U (σ τ) (hσ τ hτ) c (List.mem_of_getElem? hcm) u lo hi' hm he hlo hhi).symm) h6
      rw [this, List.length_set]
      rfl
    · have ih := ineq_inv hO hnd hE0 hpar hσ hT hk steps p1 p' f s s1 (fun s hs' => hst s (by simp [hs'])) (regInv_utm hi h1).1 h2 ht hy
        hu hd hc h4
      have h1 : utm p = .ok p1 := h1
      obtain ⟨loc, i, c, k', a, lo, hh, -, -, -, -, -, -, -, -, rfl⟩ := (utm_inv h1).shape
      have h5 := h5 _ rfl
      cases h5
      exact ih

end Beluga.E2E
