import Verif.EndToEnd.Dual

/-! # Undoing the functors before `Dualize` -/

namespace Beluga.E2E

open Beluga.Sym Beluga.Sym.Expr Beluga.Num Beluga.Map Beluga.Opt Beluga.Rep

variable {S : Sympy} {O : TrigOps ℝ} {rule : List ℝ → List ℝ → ℝ}

/-- The values of the controls bounded by 'epstrig' do not depend on the new independent variable. -/
theorem trigEnv_update {U : Name → Nat → ℝ → ℝ} {p : Prob} (hp : Stated p) {σ : Env} (h : TrigEnv p U σ) (x : ℝ) :
    TrigEnv p U (Function.update σ ("_" ++ p.ind) x) := by
  have hu : ∀ s, Plain p s → Function.update σ ("_" ++ p.ind) x s = σ s := fun s hs => Function.update_of_ne hs.2 _ _
  intro c hc u lo hi hm he hl hh
  have hmem : ∀ e ∈ parts c, ∀ s ∈ e.free, Plain p s := by
    intro e hep
    refine hp.free e ?_
    simp only [allExprs, List.mem_append, List.mem_flatMap]
    exact Or.inl (Or.inl (Or.inl (Or.inr ⟨c, Or.inl (Or.inr hc), Or.inl hep⟩)))
  have hev : ∀ e ∈ parts c, eval (real U) (Function.update σ ("_" ++ p.ind) x) e = eval (real U) σ e := fun e hep =>
    eval_congr _ fun s hs => hu s (hmem e hep s hs)
  obtain ⟨u', _, _, _, e1, hu', -⟩ := hp.reg.eps c hc hm
  rw [e1] at he
  cases he
  rw [hu _ (hp.plain _ (by simp only [List.mem_append]; exact Or.inl (Or.inr hu'))), hu _ (hp.trig _ hu').1,
    hev lo (by simp [parts, hl]), hev hi (by simp [parts, hh])]
  exact h c hc _ lo hi hm e1 hl hh

/-- The controls of the problem before `Dualize` are not defined by the user. -/
theorem control_undefined {p p3 q : Prob} {f f2 f3 : Expr → Expr} (hp : Stated p) (hf : FrontOk p p3 q f f2 f3) {u : Name}
    (hu : u ∈ q.controls) : u ∉ definedNames p := by
  rw [hf.controls] at hu
  obtain ⟨v, hv, rfl⟩ := List.mem_map.1 hu
  have hdist := hp.names
  simp only [List.nodup_append, List.mem_append] at hdist
  have hE : ∀ w ∈ epsControls p.path, w ∈ p.controls := by
    intro w hw
    obtain ⟨c, hc, hm, he⟩ := mem_epsControls.1 hw
    obtain ⟨u', _, _, _, e1, hu', -⟩ := hp.reg.eps c hc hm
    rw [e1] at he
    cases he
    exact hu'
  simp only [definedNames, List.mem_append, not_or]
  split
  · obtain ⟨-, t2⟩ := hp.trig v hv
    simp only [List.mem_append, not_or] at t2
    exact ⟨⟨t2.1.2, t2.2⟩, fun hh => t2.1.1.1.2 (hE _ hh)⟩
  · next hn =>
    exact ⟨⟨fun hh => hdist.1.2.2 v (Or.inl (Or.inr hv)) v hh rfl, fun hh => hdist.2.2 v (Or.inl (Or.inl (Or.inr hv))) v hh rfl⟩, hn⟩

/-- Neither are states, time and constants. -/
theorem base_undefined {p : Prob} (hp : Stated p) {s : Name} (hs : s ∈ p.states.map Dyn.name ++ [p.ind] ++ p.constants) :
    s ∉ definedNames p := by
  have hdist := hp.names
  simp only [List.nodup_append, List.mem_append] at hdist hs
  have hE : ∀ w ∈ epsControls p.path, w ∈ p.controls := by
    intro w hw
    obtain ⟨c, hc, hm, he⟩ := mem_epsControls.1 hw
    obtain ⟨u', _, _, _, e1, hu', -⟩ := hp.reg.eps c hc hm
    rw [e1] at he
    cases he
    exact hu'
  simp only [definedNames, List.mem_append, not_or]
  rcases hs with hs | hs
  · exact ⟨⟨fun hh => hdist.1.2.2 s (Or.inl (Or.inl hs)) s hh rfl, fun hh => hdist.2.2 s (Or.inl (Or.inl (Or.inl hs))) s hh rfl⟩,
      fun hh => hdist.1.1.1.2.2 s hs s (hE s hh) rfl⟩
  · exact ⟨⟨fun hh => hdist.1.2.2 s (Or.inr hs) s hh rfl, fun hh => hdist.2.2 s (Or.inl (Or.inr hs)) s hh rfl⟩,
      fun hh => hdist.1.1.2.2 s (Or.inr (hE s hh)) s hs rfl⟩

/-- The mappers before `Dualize`, backwards. -/
theorem front_inv {U : Name → Nat → ℝ → ℝ} {p p1 q : Prob} {ineq : List Step} (hO : O.sin = Real.sin) (hp : Stated p)
    (h1 : preprocess p = .ok p1) (hineq : ineqSteps (p1.initial ++ p1.path ++ p1.terminal) = .ok ineq)
    (h : runSteps S (.momentumShift :: (ineq ++ if p1.switches.length > 0 then [.rashs] else [])) p1 = .ok q) :
    q.constants = p.constants ∧ ∀ {Q : Env → Env}, Completes U p Q → ∀ {ρ : ℝ → Env} {τs k : List ℝ} {T : ℝ → ℝ} {s s' : Sol ℝ},
      s.y = tab (sts q) ρ τs → s.dual = tab (q.states.map fun s => lamName s.name) ρ τs → s.u = tab q.controls ρ τs →
      s.t = τs.map T → s.dyn = [] → s.const = k → (∀ τ ∈ τs, p.constants.map (ρ τ) = k) →
      invSteps S O rule (real U) (.momentumShift :: (ineq ++ if p1.switches.length > 0 then [.rashs] else [])) p1 s = .ok s' →
      s' = { s with
        t := τs.map fun τ => ρ τ p.ind
        y := tab (p.states.map Dyn.name) ρ τs
        dualT := τs.map fun τ => ρ τ (lamName p.ind)
        dual := tab (p.states.map fun d => lamName d.name) ρ τs
        u := tab p.controls (fun τ => Q (ρ τ)) τs } := by
  have hprimal : primal S p = .ok q := by
    rw [primal, h1]
    change (ineqSteps _ >>= _) = _
    rw [hineq]
    exact h
  obtain ⟨p3', f', f2', f3', hfront⟩ := front hp hprimal
  obtain ⟨f, hf⟩ := preprocess_ok hp.acyclic h1
  have hrun := h
  rw [runSteps_cons] at h
  obtain ⟨p2, h2, h⟩ := bind_ok h
  have h2 : momentumShift p1 = .ok p2 := h2
  rw [runSteps_append] at h
  obtain ⟨p3, h3, h⟩ := bind_ok h
  obtain ⟨s1, s2, s3⟩ := momentumShift_ok h2
  have hr1 := hf.reg hp
  have e_initial : p2.initial = p1.initial := by have := congrArg Prob.initial s3; exact this
  have e_path : p2.path = p1.path := by have := congrArg Prob.path s3; exact this
  have e_terminal : p2.terminal = p1.terminal := by have := congrArg Prob.terminal s3; exact this
  have e_controls : p2.controls = p1.controls := by have := congrArg Prob.controls s3; exact this
  have e_constants : p2.constants = p1.constants := by have := congrArg Prob.constants s3; exact this
  have e_symp : p2.sympified = p1.sympified := by have := congrArg Prob.sympified s3; exact this
  have hr2 : Regularisable p2.controls p2 := by
    rw [e_controls]
    refine ⟨by rw [e_symp]; exact hr1.sympified, ?_, ?_, ?_, ?_, ?_, hr1.fresh⟩
    · rw [e_initial, e_terminal]; exact hr1.ends
    · rw [e_path]; exact hr1.known
    · rw [e_initial, e_path, e_terminal, e_constants]; exact hr1.act
    · rw [e_path, e_controls]; exact hr1.eps
    · rw [e_path]; exact hr1.once
  have hnd : p2.controls.Nodup := by
    rw [e_controls, hf.controls]
    have := hp.names
    simp only [List.nodup_append] at this
    exact this.1.1.1.2.1
  have hE0 : ∀ s ∈ epsControls p2.path, s ∈ p2.controls := by
    intro s hs
    obtain ⟨c, hc, hm, he⟩ := mem_epsControls.1 hs
    obtain ⟨u, _, _, _, e1, hu, -⟩ := hr2.eps c hc hm
    rw [e1] at he; cases he; exact hu
  have d_parameters : p2.parameters = [] := by
    have h4 : p2.parameters = p1.parameters := by have := congrArg Prob.parameters s3; exact this
    have h5 : p1.parameters = p.parameters := by have := congrArg Prob.parameters hf.eqs; exact this
    rw [h4, h5, hp.parameters]
  have hstates : sts q = p.states.map Dyn.name ++ [p.ind] := hfront.names
  have hsts2 : sts p2 = p.states.map Dyn.name ++ [p.ind] := by
    rw [sts, s1, List.map_append, hf.states, List.map_map, hf.ind]
    rfl
  have hrash : q.constants = p3.constants ∧ q.controls = p3.controls := by
    split at h
    · rw [runSteps_cons] at h
      obtain ⟨r, hr, h⟩ := bind_ok h
      cases h
      have hr : rashs p3 = .ok q := hr
      rw [rashs] at hr
      split at hr
      · cases hr
      · cases hr
        generalize p3.switches.length = n
        clear * -
        induction n with
        | zero => exact ⟨rfl, rfl⟩
        | succ n ih =>
          rw [rashsLoop]
          split
          · exact ih
          · exact ih
    · cases h
      exact ⟨rfl, rfl⟩
  have hreg : p3.constants = p2.constants := by
    obtain ⟨steps, p3'', g1, g2, g3⟩ := C24_regularised_partial S p2 hr2 hnd
    rw [e_initial, e_path, e_terminal, hineq] at g1
    cases g1
    rw [h3] at g2
    cases g2
    obtain ⟨f2, r1, -⟩ := g3.rest
    have := congrArg Prob.constants r1
    exact this
  refine ⟨by rw [hrash.1, hreg, e_constants, hf.constants], ?_⟩
  intro Q hQ ρ τs k T s s' hy hdual hu ht hdyn hconst hk hi
  obtain ⟨p2', s4, e1, i1, j1⟩ := invSteps_cons hi
  rw [show Step.run S .momentumShift p1 = momentumShift p1 from rfl, h2] at e1
  cases e1
  obtain ⟨p3'', s5, e1, i2, i3⟩ := invSteps_append i1
  rw [h3] at e1
  cases e1
  have := invSteps_rashs i2
  subst this
  -- values in which the independent variable is the time of the boundary value problem
  let σ : ℝ → Env := fun τ => Function.update (Q (ρ τ)) ("_" ++ p.ind) (T τ)
  have hσ : ∀ τ s, Plain p s → σ τ s = Q (ρ τ) s := fun τ s hs => Function.update_of_ne hs.2 _ _
  have hσb : ∀ τ, ∀ s ∈ p.states.map Dyn.name ++ [p.ind] ++ p.constants, σ τ s = ρ τ s := by
    intro τ s hs
    rw [hσ τ s (hp.plain s (by simp only [List.mem_append] at hs ⊢; tauto)), hQ.off _ _ (base_undefined hp hs)]
  have key := ineq_inv (S := S) (O := O) (rule := rule) (U := U) (σ := σ) (τs := τs) (T := T) (k := k) hO hnd hE0 d_parameters (by
      intro τ _
      have := hf.trigEnv hp (trigEnv_update hp (hQ.trig (ρ τ)) (T τ))
      rw [TrigEnv, ← e_path] at this
      exact this) (by
      intro τ _
      rw [s2, hf.ind]
      exact Function.update_self _ _ _) (by
      intro τ hτ
      rw [e_constants, hf.constants, ← hk τ hτ]
      exact List.map_congr_left fun s hs => hσb τ s (by simp [hs])) ineq p2 p3 id s5 s4 (ineqSteps_mem hineq) (RegInv.refl hr2) h3 ht (by
      rw [hy, hstates, hsts2]
      exact tab_congr fun τ _ s hs => (hσb τ s (List.mem_append_left _ hs)).symm) (by
      rw [hu, hrash.2]
      refine tab_congr fun τ _ u hu => ?_
      rw [← hrash.2] at hu
      rw [hσ τ u (hfront.control_mem hp hu).1, hQ.off _ _ (control_undefined hp hfront hu)]) hdyn hconst i3
  have hus : tab p2.controls σ τs = tab p.controls (fun τ => Q (ρ τ)) τs := by
    rw [e_controls, hf.controls]
    exact tab_congr fun τ _ u hu => hσ τ u (hp.plain u (by simp [hu]))
  have hch : p2.chain = p1.chain ++ [.momentumShift (p.states.map Dyn.name).length] := by
    rw [momentumShift] at h2
    split at h2
    · cases h2
    · cases h2
      simp [hf.states]
  have j1 := invTags_one (j1 _ hch)
  have := momentumShift_inv (O := O) (ns := p.states.map Dyn.name) (ls := p.states.map fun d => lamName d.name) (n := p.ind)
    (l := lamName p.ind) (ρ := ρ) (τs := τs) (s := s4) (by rw [key, ← hstates]; exact hy) (by
      rw [key]
      have : (p.states.map fun d => lamName d.name) ++ [lamName p.ind] = q.states.map fun s => lamName s.name := by
        have e := congrArg (List.map lamName) hfront.names
        rw [List.map_map, List.map_append, List.map_map] at e
        exact e.symm
      rw [this]
      exact hdual) (by simp) j1
  rw [this, key, hus]

end Beluga.E2E
