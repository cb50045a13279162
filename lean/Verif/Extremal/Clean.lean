import Verif.Extremal.Front

/-! # The problem before dualisation: names and functions -/

namespace Beluga.Opt

open Beluga.Sym Beluga.Sym.Expr

theorem trig_inj {a b : Name} (h : trigName a = trigName b) : a = b := by
  have := congrArg String.toList h
  simp only [trigName, String.toList_append, List.append_assoc] at this
  have h1 := List.append_cancel_left this
  have h2 := List.append_cancel_right h1
  exact String.toList_injective h2

theorem delta_ne_lam (a b : String) : "_delta" ++ a ≠ "_lam_" ++ b := by
  intro h
  have := congrArg String.toList h
  simp [String.toList_append] at this

theorem delta_ne_tau (a : String) : "_delta" ++ a ≠ "_tau" := by
  intro h
  have := congrArg String.toList h
  simp [String.toList_append] at this

theorem lam_ne_tau (a : String) : "_lam_" ++ a ≠ "_tau" := by
  intro h
  have := congrArg String.toList h
  simp [String.toList_append] at this

theorem free_hexpr {q : Prob} {s : Name} (h : s ∈ (hexpr q).free) :
    s ∈ q.costPath.free ∨ ∃ d ∈ q.states, s = lamName d.name ∨ s ∈ d.eom.free := by
  rw [hexpr, hamiltonianOf] at h
  rcases foldl_add_free (fun d : Dyn => sym (lamName d.name) * d.eom) s _ _ h with h | ⟨d, hd, h⟩
  · exact Or.inl h
  · have h : s ∈ [lamName d.name] ++ d.eom.free := h
    refine Or.inr ⟨d, hd, ?_⟩
    simpa using h

theorem free_phif {q : Prob} {s : Name} (h : s ∈ (phif q).free) :
    s ∈ q.costTerminal.free ∨ (∃ c ∈ q.terminal, s ∈ c.expr.free) ∨ ∃ i : Nat, s = "_nu_f_" ++ toString i := by
  rw [phif, augment] at h
  rcases foldl_add_free (fun nc : Name × Con => sym nc.1 * nc.2.expr) s _ _ h with h | ⟨nc, hn, h⟩
  · exact Or.inl h
  · have hm := List.of_mem_zip hn
    have h : s ∈ [nc.1] ++ nc.2.expr.free := h
    simp only [List.mem_append, List.mem_singleton] at h
    rcases h with h | h
    · obtain ⟨i, -, hi⟩ := List.mem_map.1 hm.1
      exact Or.inr (Or.inr ⟨i, by rw [h, ← hi]⟩)
    · exact Or.inr (Or.inl ⟨nc.2, hm.2, h⟩)

section
variable {p p3 q : Prob} {f f2 f3 : Expr → Expr} (hp : Stated p) (h : FrontOk p p3 q f f2 f3)
include h

theorem FrontOk.eom_good : ∀ d ∈ q.states, ∀ s ∈ d.eom.free, Plain p s ∧ s ∉ definedNames p := by
  intro d hd s hs
  rw [h.states] at hd
  rcases List.mem_append.1 hd with hd | hd
  · obtain ⟨d0, h0, rfl⟩ := List.mem_map.1 hd
    exact h.good _ (h.rates d0 h0) s hs
  · simp only [List.mem_singleton] at hd
    subst hd
    cases hs

theorem FrontOk.con_good : ∀ c ∈ q.initial ++ q.terminal, ∀ s ∈ c.expr.free, Plain p s ∧ s ∉ definedNames p := by
  intro c hc s hs
  rw [h.initial, h.terminal, ← List.map_append] at hc
  obtain ⟨c0, h0, rfl⟩ := List.mem_map.1 hc
  rw [← List.filter_append, List.mem_filter] at h0
  exact h.good _ (h.cons c0 h0.1 (by simpa using h0.2)) s hs

theorem FrontOk.cost_good : ∀ e ∈ [q.costInitial, q.costPath, q.costTerminal], ∀ s ∈ e.free,
    Plain p s ∧ s ∉ definedNames p := by
  intro e he s hs
  rw [h.costs.1, h.costs.2.1, h.costs.2.2] at he
  simp only [List.mem_cons, List.not_mem_nil, or_false] at he
  rcases he with rfl | rfl | rfl
  · exact h.good _ (by simp [exprs]) s hs
  · exact h.good _ (by simp [exprs]) s hs
  · exact h.good _ (by simp [exprs]) s hs

theorem FrontOk.names : q.states.map Dyn.name = p.states.map Dyn.name ++ [p.ind] := by
  rw [h.states]
  simp [List.map_map, Function.comp_def]

include hp

theorem FrontOk.control_mem {u : Name} (hu : u ∈ q.controls) : Plain p u ∧ u ∉ p.states.map Dyn.name ++ [p.ind] ++ p.constants := by
  rw [h.controls] at hu
  obtain ⟨v, hv, rfl⟩ := List.mem_map.1 hu
  have hdist := hp.names
  simp only [List.nodup_append, List.mem_append] at hdist
  split
  · obtain ⟨t1, t2⟩ := hp.trig v hv
    refine ⟨t1, ?_⟩
    simp only [List.mem_append, not_or] at t2 ⊢
    tauto
  · refine ⟨hp.plain v (by simp [hv]), ?_⟩
    simp only [List.mem_append, not_or]
    exact ⟨⟨fun hh => hdist.1.1.1.2.2 v (Or.inl hh) v hv rfl, fun hh => hdist.1.1.1.2.2 v (Or.inr hh) v hv rfl⟩,
      fun hh => hdist.1.1.2.2 v (Or.inr hv) v hh rfl⟩

theorem FrontOk.clean : Clean q := by
  have hdist := hp.names
  simp only [List.nodup_append, List.mem_append] at hdist
  have hstn : ∀ s ∈ q.states.map Dyn.name, Plain p s := by
    intro s hs
    rw [h.names] at hs
    exact hp.plain s (by simp only [List.mem_append] at hs ⊢; exact Or.inl (Or.inl hs))
  have hlamP : ∀ {s n}, Plain p s → s ≠ "_lam_" ++ n := fun hs e => hs.1 (Or.inl ⟨_, e⟩)
  have hdelP : ∀ {s n}, Plain p s → s ≠ "_delta" ++ n := fun hs e => hs.1 (Or.inr (Or.inr (Or.inr (Or.inl ⟨_, e⟩))))
  have hnodS : (q.states.map Dyn.name).Nodup := by
    rw [h.names, List.nodup_append]
    exact hdist.1.1.1.1
  have hlamn : (q.states.map fun s => lamName s.name) = (q.states.map Dyn.name).map lamName := by
    rw [List.map_map]; rfl
  obtain ⟨m1, m2, m3, m4, m5⟩ := h.empty
  refine ⟨⟨?_, ⟨hnodS, ?_, ?_⟩, ?_, ?_⟩, h.sympified, m1, m2, m3, m5, ?_, ?_, ?_, ?_⟩
  · rw [List.nodup_append, List.nodup_append]
    refine ⟨⟨hnodS, ?_, ?_⟩, ?_, ?_⟩
    · rw [hlamn]
      exact hnodS.map fun a b e => lam_inj e
    · intro a ha b hb e
      obtain ⟨d, hd, rfl⟩ := List.mem_map.1 hb
      exact hlamP (hstn a ha) e
    · rw [h.controls]
      refine (List.Nodup.map_on ?_ hdist.1.1.1.2.1)
      intro u hu v hv e
      have hfr := hp.reg.fresh
      split at e <;> split at e
      · exact trig_inj e
      · exact absurd (e ▸ hv) (hfr u hu)
      · exact absurd (e ▸ hu) (hfr v hv)
      · exact e
    · intro a ha b hb e
      subst e
      obtain ⟨hP, hnot⟩ := h.control_mem hp hb
      rcases List.mem_append.1 ha with ha | ha
      · rw [h.names] at ha
        exact hnot (List.mem_append_left _ ha)
      · obtain ⟨d, hd, rfl⟩ := List.mem_map.1 ha
        exact hlamP hP rfl
  · intro s _ hh
    exact hlamP (h.cost_good _ (by simp) _ hh).1 rfl
  · intro s _ r hr hh
    exact hlamP (h.eom_good r hr _ hh).1 rfl
  · intro s hs i
    have := hstn s.name (List.mem_map.2 ⟨s, hs, rfl⟩)
    exact ⟨fun e => this.1 (Or.inr (Or.inl ⟨_, e⟩)), fun e => this.1 (Or.inr (Or.inr (Or.inl ⟨_, e⟩)))⟩
  · rw [h.ind]
    intro hh
    rcases free_phif hh with hh | ⟨c, hc, hh⟩ | ⟨i, hh⟩
    · exact (h.cost_good _ (by simp) _ hh).1.2 rfl
    · exact (h.con_good c (by simp [hc]) _ hh).1.2 rfl
    · exact hp.ind (Or.inr (Or.inr (Or.inl ⟨_, hh⟩)))
  · intro s hs
    rw [m4, h.ind]
    refine ⟨by simp, ?_⟩
    have key : Plain p s → s ≠ "_" ++ p.ind ∧ s ≠ "_tau" := fun hs =>
      ⟨hs.2, fun e => hs.1 (Or.inr (Or.inr (Or.inr (Or.inr e))))⟩
    rcases free_hexpr hs with hs | ⟨d, hd, rfl | hs⟩
    · exact key (h.cost_good _ (by simp) _ hs).1
    · exact ⟨fun e => hp.ind (Or.inl ⟨_, e.symm⟩), lam_ne_tau _⟩
    · exact key (h.eom_good d hd _ hs).1
  · rw [m4]
    simp only [List.map_nil, List.append_nil, List.mem_append, not_or]
    refine ⟨⟨fun hh => hdelP (hstn _ hh) rfl, ?_⟩, fun hh => hdelP (h.control_mem hp hh).1 rfl⟩
    intro hh
    obtain ⟨d, -, e⟩ := List.mem_map.1 hh
    exact delta_ne_lam _ _ e.symm
  · exact delta_ne_tau _
  · intro u hu
    refine ⟨fun hh => ?_, (delta_ne_lam _ _).symm⟩
    rcases free_hexpr hh with hh | ⟨d, hd, e | hh⟩
    · exact hlamP (h.cost_good _ (by simp) _ hh).1 rfl
    · have hx := lam_inj e
      subst hx
      refine (h.control_mem hp hu).2 (List.mem_append_left _ ?_)
      rw [← h.names]
      exact List.mem_map_of_mem hd
    · exact hlamP (h.eom_good d hd _ hh).1 rfl

omit hp in
/-- The functions are those of the user's problem. -/
theorem FrontOk.ocp : ∃ B : ℝ → ℝ → ℝ → ℝ → ℝ, Barriers B ∧
    ∀ U Q, Completes U p Q → ocpOf U p.ind (p.states.map fun d => ⟨d.name, f3 (f2 (f d.eom))⟩) p.constants q =
      userOcp U Q B p := by
  obtain ⟨B, hB, hcost⟩ := h.cost
  refine ⟨B, hB, fun U Q hQ => ?_⟩
  have hoff : ∀ (σ : Env) (e : Expr), (∀ s ∈ e.free, s ∉ definedNames p) → eval (real U) σ e = eval (real U) (Q σ) e := by
    intro σ e he
    exact eval_congr _ fun s hs => (hQ.off σ s (he s hs)).symm
  have hq : ∀ σ, Consistent (real U) (defsQ p.quantities) (Q σ) := by
    intro σ d hd
    obtain ⟨d0, h0, rfl⟩ := List.mem_map.1 hd
    exact hQ.quantities σ d0 h0
  have hm : ∀ σ e, eval (real U) (Q σ) (f2 (f e)) = eval (real U) (Q σ) e := fun σ e =>
    h.meaning U (Q σ) (hq σ) (hQ.trig σ) e
  have hs : ∀ σ, Consistent (real U) (defsS p3.switches) (Q σ) := by
    intro σ d hd
    rw [h.switches] at hd
    obtain ⟨w, hw, rfl⟩ := List.mem_map.1 hd
    obtain ⟨w0, h0, rfl⟩ := List.mem_map.1 hw
    change Q σ w0.name = eval (real U) (Q σ) (f2 (f _))
    rw [hm, eval_rashsFunc]
    exact hQ.switches σ w0 h0
  have hval : ∀ σ, ∀ e ∈ exprs p3, eval (real U) σ (f3 e) = eval (real U) (Q σ) e := by
    intro σ e he
    rw [hoff σ _ fun s hs => (h.good e he s hs).2]
    exact h.elim.meaning (real U) (Q σ) (hs σ) e
  have hcon : ∀ l : List Con, (∀ c ∈ l, c ∈ p.initial ++ p.terminal) →
      ((l.filter fun c => !c.twoSided).map fun c => c.rw (f3 ∘ f2 ∘ f)).map (fun c σ => eval (real U) σ c.expr) =
        (l.filter fun c => !c.twoSided).map fun c σ => eval (real U) (Q σ) c.expr := by
    intro l hl
    rw [List.map_map]
    refine List.map_congr_left fun c hc => ?_
    rw [List.mem_filter] at hc
    funext σ
    change eval (real U) σ (f3 (f2 (f c.expr))) = _
    rw [hval σ _ (h.cons c (hl c hc.1) (by simpa using hc.2)), hm]
  rw [ocpOf, userOcp]
  congr 1
  · rw [List.map_map]
    refine List.map_congr_left fun d hd => ?_
    simp only [Function.comp_apply, Prod.mk.injEq, true_and]
    funext σ
    rw [hval σ _ (h.rates d hd), hm]
  · exact h.controls
  · funext σ
    rw [h.costs.2.1, hval σ _ (by simp [exprs])]
    exact hcost U (Q σ) (hq σ) (hQ.trig σ) 1 (by omega)
  · funext σ
    rw [h.costs.1, hval σ _ (by simp [exprs])]
    exact hcost U (Q σ) (hq σ) (hQ.trig σ) 0 (by omega)
  · funext σ
    rw [h.costs.2.2, hval σ _ (by simp [exprs])]
    exact hcost U (Q σ) (hq σ) (hQ.trig σ) 2 (by omega)
  · rw [h.initial]
    exact hcon _ fun c hc => List.mem_append_left _ hc
  · rw [h.terminal]
    exact hcon _ fun c hc => List.mem_append_right _ hc

end

end Beluga.Opt
