import Verif.EndToEnd.Back

/-! # Undoing the functors from `Dualize` on -/

namespace Beluga.E2E

open Beluga.Sym Beluga.Sym.Expr Beluga.Num Beluga.Map Beluga.Opt Beluga.Rep

variable {S : Sympy} {O : TrigOps ℝ} {rule : List ℝ → List ℝ → ℝ}

theorem algebraic_chain {p p' : Prob} (h : algebraicControl S p = .ok p') : p'.chain = p.chain ++ [.algebraic] := by
  rw [algebraicControl] at h
  split at h
  · cases h
  · split at h
    · cases h
    · obtain ⟨law, -, h⟩ := bind_ok h
      cases h
      rfl

/-- What the mappers make of a solution of the boundary value problem: the solution of the problem before `Dualize`. -/
theorem dual_inv {U : Name → Nat → ℝ → ℝ} (hL : LuSound S) {q p' : Prob} (hq : Clean q) {meth : Method} (hm : meth ≠ .other)
    {ctl : Step} {norm jac : Bool}
    (hctl : ctl = .algebraic ∨ ctl = .differential meth)
    (h : runSteps S ([.dualize meth, ctl] ++ (if norm then [.normalizeTime] else []) ++ [.squash] ++
      (if jac then [.jacobians] else [])) q = .ok p') {a : ℝ} {ρ : ℝ → Env} {τs k : List ℝ} (hne : τs ≠ []) {s s' : Sol ℝ}
    (hy : s.y = tab (sts p') ρ τs) (ht : s.t = τs) (hd : s.dyn = p'.parameters.map (ρ a)) (hk : s.const = k)
    (hu : ∀ τ ∈ τs, ∃ o, computeU (real U) p' ((sts p').map (ρ τ)) s.dyn k = .ok o)
    (hr : ∀ τ ∈ τs, ∀ u, computeU (real U) p' ((sts p').map (ρ τ)) s.dyn k = .ok (some u) → p'.controls.map (ρ τ) = u)
    (hind : q.ind ∉ sts q ++ q.states.map (fun s => lamName s.name) ++ q.controls ++ q.constants)
    (hdel : "_delta" ++ q.ind ∉ q.constants)
    (hi : invSteps S O rule (real U) ([.dualize meth, ctl] ++ (if norm then [.normalizeTime] else []) ++ [.squash] ++
      (if jac then [.jacobians] else [])) q s = .ok s') :
    (p'.controls = [] ∨ p'.controlLaw ≠ []) ∧
    ∃ v, computeCost rule (real U) q (τs.map fun t => t * pace norm q.ind a ρ) (tab (sts q) ρ τs) s.q (tab q.controls ρ τs) [] k = .ok v ∧
      s' = { s with
        t := τs.map fun t => t * pace norm q.ind a ρ
        dyn := []
        y := tab (sts q) ρ τs
        dual := tab (q.states.map fun s => lamName s.name) ρ τs
        u := tab q.controls ρ τs
        nondyn := []
        cost := some v } := by
  rw [List.append_assoc, List.append_assoc, List.cons_append, List.cons_append, List.nil_append] at h hi
  rw [runSteps_cons] at h
  obtain ⟨qd, hdu, h⟩ := bind_ok h
  rw [runSteps_cons] at h
  obtain ⟨q1, h1, h⟩ := bind_ok h
  rw [← List.append_assoc] at h hi
  obtain ⟨qd', s1, e1, i1, j1⟩ := invSteps_cons hi
  rw [hdu] at e1
  cases e1
  obtain ⟨q1', s2, e1, i2, j2⟩ := invSteps_cons i1
  rw [h1] at e1
  cases e1
  obtain ⟨t1, t2, t3, t4, t5, t6, t7⟩ := tail_ok h
  obtain ⟨w1, w2, w3, w4⟩ := tail_more h
  have hD := dualize_any hL hq hm hdu
  have hHd := hD.ham
  have hst := hD.states
  have hco := hD.names
  have hcn := hD.controls
  have hin := hD.ind
  have hpa : qd.parameters = [] := hD.parameters.trans hq.parameters
  have hks := hD.constants
  have hch := hD.chain
  obtain ⟨n, m, hch⟩ := hch
  have j1 := j1 _ hch
  -- the tail
  have tail : q1.parameters = [] → q1.ind = q.ind → ∃ nd, s2 = { s with
      t := τs.map fun t => t * pace norm q.ind a ρ
      dyn := []
      y := tab (sts q1) ρ τs
      dual := tab (q1.costates.map Dyn.name) ρ τs
      nondyn := nd } := by
    intro g1 g2
    refine tail_inv g1 (by rw [hy, w1]) ht ?_ ?_ i2
    · rw [hd, w2, g1, g2, pace]
      cases norm <;> simp
    · intro hn
      rw [pace, hn]
      rfl
  -- the cost
  have finish : ∀ {nd}, s1 = { s with
      t := τs.map fun t => t * pace norm q.ind a ρ
      dyn := []
      y := tab (sts q) ρ τs
      dual := tab (q.states.map fun s => lamName s.name) ρ τs
      u := tab q.controls ρ τs
      nondyn := nd } →
    ∃ v, computeCost rule (real U) q (τs.map fun t => t * pace norm q.ind a ρ) (tab (sts q) ρ τs) s.q (tab q.controls ρ τs) [] k = .ok v ∧
      s' = { s with
        t := τs.map fun t => t * pace norm q.ind a ρ
        dyn := []
        y := tab (sts q) ρ τs
        dual := tab (q.states.map fun s => lamName s.name) ρ τs
        u := tab q.controls ρ τs
        nondyn := []
        cost := some v } := by
    intro nd e
    have j1 := invTags_one j1
    rw [invTag, e] at j1
    obtain ⟨v, hv, j1⟩ := bind_ok j1
    cases j1
    rw [hk] at hv
    exact ⟨v, hv, rfl⟩
  have hsq : sts q = q.states.map Dyn.name := rfl
  rcases hctl with rfl | rfl
  · have h1 : algebraicControl S qd = .ok q1 := h1
    obtain ⟨dhdu, chain, e, -⟩ := algebraic_ok hHd h1
    have g1 : q1.states = qd.states := by rw [e]
    have g2 : q1.costates = qd.costates := by rw [e]
    have g3 : q1.ind = qd.ind := by rw [e]
    have g4 : q1.parameters = qd.parameters := by rw [e]
    have g5 : q1.constants = qd.constants := by rw [e]
    have g6 : q1.controls = qd.controls := by rw [e]
    have j2 := invTags_one (j2 _ (algebraic_chain h1))
    obtain ⟨nd, e2⟩ := tail (g4.trans hpa) (g3.trans hin)
    have hs1 : sts q1 = sts q := by rw [sts, g1, hst]; rfl
    have hl1 : q1.costates.map Dyn.name = q.states.map fun s => lamName s.name := by rw [g2, hco]
    have hp1 : p'.parameters = if norm then ["_delta" ++ q.ind] else [] := by rw [w2, g4, hpa, g3, hin]; rfl
    have hlen : "_delta" ++ q.ind ≠ q.ind := by
      intro e
      have h2 := congrArg String.length e
      rw [String.length_append] at h2
      have h3 : "_delta".length = 6 := by decide
      omega
    obtain ⟨r1, r2⟩ := algebraic_inv (T := fun t => t * pace norm q.ind a ρ) t5 w4 t4 w1 w3 (g4.trans hpa) (by
        rw [w1, t4, w3, hp1, hs1, hl1, g3, hin, g6, hcn, g5, hks]
        simp only [List.mem_append, not_or] at hind ⊢
        refine ⟨⟨⟨hind.1.1, hind.1.2⟩, ?_⟩, hind.2⟩
        cases norm
        · simp
        · simp only [if_true, List.mem_singleton]
          exact fun e => hlen e.symm) (by
        rw [hp1, w3, g5, hks]
        cases norm
        · simp
        · simpa using hdel) hne hu hr (s := s2) (by rw [e2]) (by rw [e2]) (by rw [e2]) (by rw [e2]) (by rw [e2, ← hk]) j2
    refine ⟨Or.inr (by rw [t5]; exact r1), finish (nd := nd) ?_⟩
    rw [r2, e2, hs1, hl1, g6, hcn]
  · have h1 : differentialControl S meth qd = .ok q1 := h1
    have hX := differential_any hL hD h1
    obtain ⟨nd, e2⟩ := tail (hX.parameters.trans hq.parameters) hX.ind
    have hs1 : sts q1 = sts q ++ q.controls := hX.names
    have hl1 := hX.lams
    have hls : q.states.length = (sts q).length := by simp [sts]
    refine ⟨Or.inl (by rw [t4, hX.controls]), finish (nd := nd) ?_⟩
    cases meth with
    | other => exact absurd rfl hm
    | traditional =>
      obtain ⟨-, -, H, udot, hH, hlu, e⟩ := differential_traditional h1
      obtain ⟨hlen, -⟩ := udot_solves hL hlu
      have hcl : (ctlStates qd.controls udot).length = qd.controls.length := by
        rw [← congrArg List.length (ctlStates_names hlen), List.length_map]
      have g7 : q1.chain = qd.chain ++ [.differential ((List.range (ctlStates qd.controls udot).length).map (qd.states.length + ·))] := by
        rw [e]
      have j2 := invTags_one (j2 _ g7)
      rw [hcl, hcn, hst, hls] at j2
      have := differential_inv (O := O) (s := s2) (by rw [e2, hs1]) j2
      rw [if_neg (by decide), List.append_nil] at hl1
      rw [this, e2, hl1]
    | diffyg =>
      obtain ⟨_, _, H, udot, chi, hH, hlu, _, _, e⟩ := differential_diffyg h1
      obtain ⟨hlen, -⟩ := udot_solves hL hlu
      have hcl : (ctlStates qd.controls udot).length = qd.controls.length := by
        rw [← congrArg List.length (ctlStates_names hlen), List.length_map]
      have g7 : q1.chain = qd.chain ++ [.differentialDiffyG ((List.range (ctlStates qd.controls udot).length).map (qd.states.length + ·))] := by
        rw [e]
      have j2 := invTags_one (j2 _ g7)
      rw [hcl, hcn, hst, hls] at j2
      rw [if_pos rfl] at hl1
      have := differentialDiffyG_inv (O := O) (s := s2) (by rw [e2, hs1]) (by rw [e2, hl1]) (by simp [sts]) (by simp) j2
      rw [this, e2]

end Beluga.E2E
