import Verif.Extremal.Still

/-! # Solutions of the boundary value problem generated without `momentumShift` are extremals (C64) -/

namespace Beluga.Opt

open Beluga.Sym Beluga.Sym.Expr

variable {U : Name → Nat → ℝ → ℝ}

/-- What the front end does without `momentumShift`. -/
structure StillOk (p q0 q : Prob) (f : Expr → Expr) : Prop where
  beside : Beside q0 q
  ind : q0.ind = p.ind
  states : q0.states = p.states.map fun d => ⟨d.name, f d.eom⟩
  absent : Absent q0 p.ind
  plain : ∀ s, ¬ Plain p s → Absent q0 s

theorem str_cancel {a b c : String} (h : a ++ b = a ++ c) : b = c := by
  have := congrArg String.toList h
  rw [String.toList_append, String.toList_append] at this
  exact String.toList_injective (List.append_cancel_left this)

theorem still_front {S : Sympy} {p q0 : Prob} (hp : Stated p) (hau : Autonomous p) (h : primal0 S p = .ok q0) :
    ∃ q p3 f f2 f3, primal S p = .ok q ∧ FrontOk p p3 q f f2 f3 ∧ StillOk p q0 q (f3 ∘ f2 ∘ f) := by
  obtain ⟨q, hq, hb⟩ := primal_beside h
  have hdist := hp.names
  simp only [List.nodup_append, List.mem_append] at hdist
  obtain ⟨p3, f, f2, f3, hf, hP⟩ := front_with (P := fun s => s ≠ p.ind) hp
    (fun e he s hs e1 => hau e he (e1 ▸ hs))
    (fun s hs e1 => hdist.1.1.2.2 s (Or.inl (Or.inr (by simp [e1]))) s hs rfl)
    (fun u hu e1 => (hp.trig u hu).2 (by simp [e1])) hq
  refine ⟨q, p3, f, f2, f3, hq, hf, ?_⟩
  obtain ⟨sy, ch, e⟩ := id hb
  have e_ind : q.ind = "_" ++ q0.ind := by rw [e]
  have e_states : q.states = q0.states ++ [⟨q0.ind, 1⟩] := by rw [e]
  have e_cons : q.initial = q0.initial ∧ q.terminal = q0.terminal := by rw [e]; exact ⟨rfl, rfl⟩
  have e_costs : q.costInitial = q0.costInitial ∧ q.costPath = q0.costPath ∧ q.costTerminal = q0.costTerminal := by
    rw [e]; exact ⟨rfl, rfl, rfl⟩
  have hind : q0.ind = p.ind := str_cancel (e_ind.symm.trans hf.ind)
  have hst : q0.states = p.states.map fun d => ⟨d.name, (f3 ∘ f2 ∘ f) d.eom⟩ := by
    have := e_states.symm.trans hf.states
    rw [hind] at this
    exact List.append_cancel_right this
  refine ⟨hb, hind, hst, ⟨?_, ?_, ?_⟩, fun s hs => ⟨?_, ?_, ?_⟩⟩
  · intro d hd hh
    rw [hst] at hd
    obtain ⟨d0, h0, rfl⟩ := List.mem_map.1 hd
    exact hP _ (hf.rates d0 h0) _ hh rfl
  · intro c hc hh
    rw [← e_cons.1, ← e_cons.2, hf.initial, hf.terminal, ← List.map_append] at hc
    obtain ⟨c0, h0, rfl⟩ := List.mem_map.1 hc
    rw [← List.filter_append, List.mem_filter] at h0
    exact hP _ (hf.cons c0 h0.1 (by simpa using h0.2)) _ hh rfl
  · rw [← e_costs.1, ← e_costs.2.1, ← e_costs.2.2, hf.costs.1, hf.costs.2.1, hf.costs.2.2]
    exact ⟨fun hh => hP _ (by simp [exprs]) _ hh rfl, fun hh => hP _ (by simp [exprs]) _ hh rfl,
      fun hh => hP _ (by simp [exprs]) _ hh rfl⟩
  · intro d hd hh
    exact hs (hf.eom_good d (by rw [e_states]; exact List.mem_append_left _ hd) s hh).1
  · intro c hc hh
    exact hs (hf.con_good c (by rw [e_cons.1, e_cons.2]; exact hc) s hh).1
  · rw [← e_costs.1, ← e_costs.2.1, ← e_costs.2.2]
    exact ⟨fun hh => hs (hf.cost_good _ (by simp) s hh).1, fun hh => hs (hf.cost_good _ (by simp) s hh).1,
      fun hh => hs (hf.cost_good _ (by simp) s hh).1⟩

theorem not_plain_lam (p : Prob) (n : Name) : ¬ Plain p (lamName n) := fun h => h.1 (Or.inl ⟨_, rfl⟩)

theorem StillOk.clean {p q0 q p3 : Prob} {f f2 f3 g : Expr → Expr} (hp : Stated p) (hf : FrontOk p p3 q f f2 f3)
    (h : StillOk p q0 q g) : Clean q0 := by
  have hc := hf.clean hp
  obtain ⟨sy, ch, e⟩ := id h.beside
  have e_states : q.states = q0.states ++ [⟨q0.ind, 1⟩] := by rw [e]
  have e_controls : q.controls = q0.controls := by rw [e]
  have e_quads : q.quads = q0.quads := by rw [e]
  have e_path : q.costPath = q0.costPath := by rw [e]
  have hsub : ∀ {s}, s ∈ (hexpr q0).free → s ∈ (hexpr q).free := by
    intro s hs
    have : hexpr q = hexpr q0 + sym (lamName q0.ind) * 1 := by
      rw [hexpr, e_states, e_path]
      simp only [hamiltonianOf, List.foldl_append, List.foldl_cons, List.foldl_nil]
    rw [this]
    change s ∈ (hexpr q0).free ++ _
    exact List.mem_append_left _ hs
  have hstn : ∀ s ∈ q0.states.map Dyn.name, Plain p s := by
    intro s hs
    rw [h.states, List.map_map] at hs
    obtain ⟨d, hd, rfl⟩ := List.mem_map.1 hs
    exact hp.plain _ (by simp only [List.mem_append]; exact Or.inl (Or.inl (Or.inl (List.mem_map.2 ⟨d, hd, rfl⟩))))
  have hq0c : ∀ u ∈ q0.controls, Plain p u ∧ u ∉ p.states.map Dyn.name ++ [p.ind] ++ p.constants := by
    intro u hu
    exact hf.control_mem hp (by rw [e_controls]; exact hu)
  have hdelP : ∀ {s n}, Plain p s → "_delta" ++ n ≠ s := fun hs e => hs.1 (Or.inr (Or.inr (Or.inr (Or.inl ⟨_, e.symm⟩))))
  have hempty := hf.empty
  refine ⟨⟨?_, ⟨?_, ?_, ?_⟩, ?_, ?_⟩, ?_, ?_, ?_, ?_, ?_, ?_, ?_, delta_ne_tau _, ?_⟩
  · refine hc.nodup.sublist ?_
    rw [e_states, e_controls, List.map_append, List.map_append]
    exact ((List.sublist_append_left _ _).append (List.sublist_append_left _ _)).append (List.Sublist.refl _)
  · refine hc.lam.nodup.sublist ?_
    rw [e_states, List.map_append]
    exact List.sublist_append_left _ _
  · intro s _ hh
    exact (h.plain _ (not_plain_lam p s.name)).costs.2.1 hh
  · intro s _ r hr hh
    exact (h.plain _ (not_plain_lam p s.name)).rates r hr hh
  · intro s hs i
    exact hc.nu s (by rw [e_states]; exact List.mem_append_left _ hs) i
  · intro hh
    rw [h.ind] at hh
    rcases free_phif hh with hh | ⟨c, hc', hh⟩ | ⟨i, hh⟩
    · exact h.absent.costs.2.2 hh
    · exact h.absent.cons c (List.mem_append_right _ hc') hh
    · have := hp.plain p.ind (by simp)
      exact this.1 (Or.inr (Or.inr (Or.inl ⟨_, hh⟩)))
  · have := hc.sympified
    rw [e] at this
    exact this
  · have := hempty.1
    rw [e] at this
    exact this
  · have := hempty.2.1
    rw [e] at this
    exact this
  · have := hempty.2.2.1
    rw [e] at this
    exact this
  · have := hempty.2.2.2.2
    rw [e] at this
    exact this
  · intro s hs
    obtain ⟨k1, -, k3⟩ := hc.free s (hsub hs)
    refine ⟨by rw [← e_quads]; exact k1, ?_, k3⟩
    rintro rfl
    rw [h.ind] at hs
    rcases free_hexpr hs with hs | ⟨d, hd, e1 | hs⟩
    · exact h.absent.costs.2.1 hs
    · have := hp.plain p.ind (by simp)
      exact this.1 (Or.inl ⟨_, e1⟩)
    · exact h.absent.rates d hd hs
  · rw [← e_quads, hempty.2.2.2.1]
    simp only [List.map_nil, List.append_nil, List.mem_append, not_or]
    refine ⟨⟨fun hh => hdelP (hstn _ hh) rfl, ?_⟩, fun hh => hdelP (hq0c _ hh).1 rfl⟩
    intro hh
    obtain ⟨d, -, e⟩ := List.mem_map.1 hh
    exact delta_ne_lam _ _ e.symm
  · intro u hu
    exact ⟨fun hh => (hc.lam_controls u (by rw [e_controls]; exact hu)).1 (hsub hh), (delta_ne_lam _ _).symm⟩

/-- Only the costates of the states matter. -/
theorem Extremal.congr_lam {O : Ocp} {a b : ℝ} {x : ℝ → Env} {lam lam' : ℝ → Name → ℝ} {ν₀ ν₁ : Nat → ℝ}
    (h : Extremal O a b x lam ν₀ ν₁) (hl : ∀ t, ∀ r ∈ O.rates, lam t r.1 = lam' t r.1) : Extremal O a b x lam' ν₀ ν₁ := by
  have hham : ∀ t, O.ham (lam t) = O.ham (lam' t) := by
    intro t
    funext σ
    rw [Ocp.ham, Ocp.ham]
    congr 2
    refine List.map_congr_left fun r hr => ?_
    rw [hl t r hr]
  refine ⟨h.time, h.fixed, h.motion, ?_, ?_, h.initial, h.terminal, ?_, ?_, ?_, ?_⟩
  · intro r hr t ht
    obtain ⟨d, h1, h2⟩ := h.adjoint r hr t ht
    rw [hham] at h1
    rw [show (fun τ => lam τ r.1) = fun τ => lam' τ r.1 from funext fun τ => hl τ r hr] at h2
    exact ⟨d, h1, h2⟩
  · intro u hu t ht
    rw [← hham]
    exact h.stationary u hu t ht
  · intro r hr
    rw [← hl a r hr]
    exact h.start r hr
  · intro r hr
    rw [← hl b r hr]
    exact h.stop r hr
  · rw [← hham]
    exact h.start_time
  · rw [← hham]
    exact h.stop_time

/-- Without `momentumShift`, for problems without explicit time: every solution of the generated boundary value problem is
an extremal of the user's problem, over a time interval that may start at any time `t0`.  This is the companion of
`C64_extremal_partial` for the other value of the option; with the method 'diffyg' it needs the algebraic control method.

Missing from the full property: parameters and quadratures, one-sided constraints, names that clash with generated ones (as in
`C64_extremal_partial`), and the method 'diffyg' with differential control. -/
theorem C64_unshifted_partial {S : Sympy} (hL : LuSound S) {o : Opts} {p p' : Prob} (hp : Stated p) (hau : Autonomous p)
    (hm : o.momentumShift = false) (hd : o.method = .traditional ∨ o.method = .diffyg ∧ o.controlMethod = .algebraic)
    (hS : o.controlMethod = .algebraic → SolveSound S) (h : indirect S o p = .ok p') :
    ∃ q B, primal0 S p = .ok q ∧ Barriers B ∧
      ∀ U Q, Completes U p Q → ∀ a b ρ, a ≤ b → Solves U p' a b ρ → Regular S U q p' a b ρ →
        ∀ c, c = (if o.normalizeTime then ρ a ("_delta" ++ p.ind) else 1) → 0 < c → ∀ t0,
          Extremal (userOcp U Q B p) t0 (t0 + c * (b - a)) (fun s => Function.update (ρ (a + (s - t0) / c)) p.ind s)
            (fun s n => ρ (a + (s - t0) / c) ("_lam_" ++ n)) (fun i => ρ a ("_nu_0_" ++ toString i))
            (fun i => ρ a ("_nu_f_" ++ toString i)) := by
  obtain ⟨q0, ctl, hq0, hctl, h⟩ := indirect_split0 hm h
  obtain ⟨q, p3, f, f2, f3, hq, hf, hst⟩ := still_front hp hau hq0
  obtain ⟨B, hB, hocp⟩ := hf.ocp
  refine ⟨q0, B, hq0, hB, fun U Q hQ a b ρ hab hs hr c hc hpos t0 => ?_⟩
  have hcl0 := hst.clean hp hf
  have hcl := hf.clean hp
  have hmo : o.method ≠ .other := by rcases hd with hd | ⟨hd, -⟩ <;> rw [hd] <;> decide
  obtain ⟨h1, h2⟩ := pipeline (U := U) hL hcl0 hmo (ctl := ctl) (norm := o.normalizeTime)
    (jac := o.analyticalJacobian && o.controlMethod ≠ .algebraic)
    (hctl.imp (fun hh => ⟨hh.1, hS hh.2⟩) fun hh => hh.1) (by
      intro e
      rcases hctl with hh | hh
      · rw [hh.1] at e; cases e
      · rw [hh.1] at e
        injection e with e
        rcases hd with hd | hd
        · rw [hd] at e; cases e
        · rw [hh.2] at hd; cases hd.2) h hab (η := 0) (ε := 0) (Or.inr rfl) (le_refl _) (nearlySolves_zero.2 hs) hr (by
      intro hn
      rw [hn] at hc
      simp only [if_true] at hc
      rw [hst.ind, ← hc]
      exact hpos)
  have hcp : pace o.normalizeTime q0.ind a ρ = c := by rw [hc, pace, hst.ind]
  rw [hcp] at h1
  have hpi := hp.plain p.ind (by simp)
  have hdist := hp.names
  simp only [List.nodup_append, List.mem_append] at hdist
  obtain ⟨sy, ch, e⟩ := id hst.beside
  have e_states : q.states = q0.states ++ [⟨q0.ind, 1⟩] := by rw [e]
  have e_controls : q.controls = q0.controls := by rw [e]
  have e_quads : q.quads = q0.quads := by rw [e]
  have e_path : q.costPath = q0.costPath := by rw [e]
  have e_cons : q.initial = q0.initial ∧ q.terminal = q0.terminal := by rw [e]; exact ⟨rfl, rfl⟩
  have e_costs : q.costInitial = q0.costInitial ∧ q.costTerminal = q0.costTerminal := by rw [e]; exact ⟨rfl, rfl⟩
  have hquads : q0.quads = [] := by rw [← e_quads]; exact hf.empty.2.2.2.1
  have hnames0 : q0.states.map Dyn.name = p.states.map Dyn.name := by
    rw [hst.states, List.map_map]; rfl
  have hpst : ∀ s ∈ p.states.map Dyn.name, Plain p s := fun s hs =>
    hp.plain s (by simp only [List.mem_append]; exact Or.inl (Or.inl (Or.inl hs)))
  have hctl0 : ∀ u ∈ q0.controls, Plain p u ∧ u ∉ p.states.map Dyn.name ++ [p.ind] ++ p.constants := fun u hu =>
    hf.control_mem hp (by rw [e_controls]; exact hu)
  have hnun : ∀ (n : Name) (i : Nat), lamName n ≠ "_nu_0_" ++ toString i ∧ lamName n ≠ "_nu_f_" ++ toString i := by
    intro n i
    constructor <;>
    · intro hh
      have := congrArg String.toList hh
      simp [lamName, String.toList_append] at this
  have hplam := hst.plain _ (not_plain_lam p p.ind)
  have hnolam : ∀ {s n}, Plain p s → s ≠ lamName n := fun hs e => hs.1 (Or.inl ⟨_, e⟩)
  have hnt : q0.ind ∉ q0.states.map Dyn.name ++ q0.controls := by
    rw [hst.ind, hnames0, List.mem_append, not_or]
    exact ⟨fun hh => hdist.1.1.1.1.2.2 _ hh _ (List.mem_singleton_self _) rfl, fun hh => (hctl0 _ hh).2 (by simp)⟩
  have hnl : lamName q0.ind ∉ q0.states.map Dyn.name ++ q0.controls := by
    rw [hnames0, List.mem_append, not_or]
    exact ⟨fun hh => hnolam (hpst _ hh) rfl, fun hh => hnolam (hctl0 _ hh).1 rfl⟩
  have hD := h1.exact.withTime hst.beside t0 (by rw [hst.ind]; exact hst.absent) (by rw [hst.ind]; exact hplam) hcl.ind hnt hnl
    (fun n => by rw [hst.ind]; exact hnolam hpi)
    (fun i => by
      rw [hst.ind]
      exact ⟨fun e => hpi.1 (Or.inr (Or.inl ⟨_, e⟩)), fun e => hpi.1 (Or.inr (Or.inr (Or.inl ⟨_, e⟩)))⟩) hnun
  rw [hst.ind] at hD
  set ρ' := withTime p.ind t0 c a ρ with hρ'
  have hoff : ∀ τ s, s ≠ p.ind → s ≠ lamName p.ind → ρ' τ s = ρ τ s := by
    intro τ s k1 k2
    rw [hρ', withTime, Function.update_of_ne k2, Function.update_of_ne k1]
  have hfun : ∀ {s}, s ≠ p.ind → s ≠ lamName p.ind → Moves a b ρ 0 s → Moves a b ρ' 0 s := by
    intro s k1 k2 hmv t ht
    have := hmv t ht
    rwa [show (fun τ => ρ' τ s) = fun τ => ρ τ s from funext fun τ => hoff τ s k1 k2]
  have hagree : ∀ τ (x : Expr), p.ind ∉ x.free → lamName p.ind ∉ x.free → ∀ s ∈ x.free, ρ τ s = ρ' τ s := by
    intro τ x k1 k2 s hs
    refine (hoff τ s ?_ ?_).symm
    · rintro rfl; exact k1 hs
    · rintro rfl; exact k2 hs
  have hsm : ∀ t ∈ Set.Icc a b, SmoothRates q U (ρ' t) := by
    intro t ht
    obtain ⟨k1, k2⟩ := hr.rates t ht
    refine ⟨?_, ?_⟩
    · rw [e_path]
      exact smooth_congr (hagree t _ hst.absent.costs.2.1 hplam.costs.2.1) k1
    · intro s hs
      rw [e_states, List.mem_append, List.mem_singleton] at hs
      rcases hs with hs | rfl
      · exact smooth_congr (hagree t _ (hst.absent.rates s hs) (hplam.rates s hs)) (k2 s hs)
      · trivial
  have hse : ∀ τ, SmoothStart q0 U (ρ τ) → SmoothStart q U (ρ' τ) := by
    rintro τ ⟨k1, k2⟩
    rw [SmoothStart, e_costs.1, e_cons.1]
    exact ⟨smooth_congr (hagree τ _ hst.absent.costs.1 hplam.costs.1) k1,
      fun k hk => smooth_congr (hagree τ _ (hst.absent.cons k (List.mem_append_left _ hk)) (hplam.cons k (List.mem_append_left _ hk))) (k2 k hk)⟩
  have hsf : ∀ τ, SmoothStop q0 U (ρ τ) → SmoothStop q U (ρ' τ) := by
    rintro τ ⟨k1, k2⟩
    rw [SmoothStop, e_costs.2, e_cons.2]
    exact ⟨smooth_congr (hagree τ _ hst.absent.costs.2.2 hplam.costs.2.2) k1,
      fun k hk => smooth_congr (hagree τ _ (hst.absent.cons k (List.mem_append_right _ hk)) (hplam.cons k (List.mem_append_right _ hk))) (k2 k hk)⟩
  have hmoves : ∀ s, s ∉ q0.states.map Dyn.name → s ∉ q0.states.map (fun s => lamName s.name) → s ∉ q0.controls →
      s ∉ q0.controls.map lamName → s ≠ p.ind → s ≠ "_tau" → Moves a b ρ 0 s := by
    intro s n1 n2 n3 n6 n4 n5
    refine h2 s ?_ n6 (by rw [hst.ind]; exact n4) n5
    rw [hquads]
    simp only [List.mem_append, not_or, List.map_nil, List.not_mem_nil, not_false_eq_true, and_true]
    exact ⟨⟨n1, n2⟩, n3⟩
  have hρa : ρ' a p.ind = t0 := by
    rw [hρ', withTime, Function.update_of_ne (hnolam hpi), Function.update_self, sub_self, mul_zero, add_zero]
  have hnear := (hD.near hab).extremal hab hcl.toNamed hf.states (fixed := p.constants) (by
      intro s hs hns
      simp only [List.mem_append, not_or] at hns
      rw [e_states, List.map_append, List.map_append, List.mem_append, List.mem_append, not_or, not_or, e_controls] at hns
      obtain ⟨⟨⟨n1, n2⟩, n3, n4⟩, n5⟩ := hns
      have n2' : s ≠ p.ind := fun e => n2 (by simp [e, hst.ind])
      have n4' : s ≠ lamName p.ind := fun e => n4 (by simp [e, hst.ind])
      obtain ⟨-, -, k3⟩ := hcl.free s hs
      refine hfun n2' n4' (hmoves s n1 n3 n5 ?_ n2' k3)
      intro hx
      obtain ⟨u, hu, rfl⟩ := List.mem_map.1 hx
      exact (hcl.lam_controls u (by rw [e_controls]; exact hu)).1 hs) (by
      intro s hs
      have hps := hp.plain s (by simp [hs])
      have n4 : s ≠ p.ind := fun e1 => hdist.1.1.2.2 s (Or.inl (Or.inr (by simp [e1]))) s hs rfl
      refine hfun n4 (hnolam hps) (hmoves s ?_ ?_ ?_ ?_ n4 fun e1 => hps.1 (Or.inr (Or.inr (Or.inr (Or.inr e1)))))
      · rw [hnames0]
        exact fun hh => hdist.1.1.2.2 s (Or.inl (Or.inl hh)) s hs rfl
      · intro hh
        obtain ⟨d, -, e1⟩ := List.mem_map.1 hh
        exact hnolam hps e1.symm
      · exact fun hh => (hctl0 s hh).2 (by simp [hs])
      · intro hh
        obtain ⟨d, -, e1⟩ := List.mem_map.1 hh
        exact hnolam hps e1.symm) (by
      intro i
      have hne : ∀ s, Plain p s → "_nu_f_" ++ toString i ≠ s := fun s hs e1 => hs.1 (Or.inr (Or.inr (Or.inl ⟨_, e1.symm⟩)))
      have hmv : Moves a b ρ 0 ("_nu_f_" ++ toString i) := by
        refine hmoves _ ?_ ?_ ?_ ?_ (hne _ hpi) ?_
        · rw [hnames0]
          exact fun hh => hne _ (hpst _ hh) rfl
        · intro hh
          obtain ⟨d, -, e1⟩ := List.mem_map.1 hh
          exact (hnun _ i).2 e1
        · exact fun hh => hne _ (hctl0 _ hh).1 rfl
        · intro hh
          obtain ⟨d, -, e1⟩ := List.mem_map.1 hh
          exact (hnun _ i).2 e1
        · intro e1
          have := congrArg String.toList e1
          simp [String.toList_append] at this
      rw [hoff a _ (hne _ hpi) (hnun _ i).2.symm, hoff b _ (hne _ hpi) (hnun _ i).2.symm]
      exact (moves_const hmv b ⟨hab, le_refl _⟩).symm) hsm (hse a hr.start) (hsf b hr.stop)
  have hex := nearExtremal_zero.1 hnear
  rw [hρa] at hex
  rw [← hocp U Q hQ]
  have hlt : ∀ i : Nat, ρ' a ("_nu_0_" ++ toString i) = ρ a ("_nu_0_" ++ toString i) := fun i =>
    hoff a _ (fun e1 => hpi.1 (Or.inr (Or.inl ⟨_, e1.symm⟩))) (hnun _ i).1.symm
  have hlf : ∀ i : Nat, ρ' a ("_nu_f_" ++ toString i) = ρ a ("_nu_f_" ++ toString i) := fun i =>
    hoff a _ (fun e1 => hpi.1 (Or.inr (Or.inr (Or.inl ⟨_, e1.symm⟩)))) (hnun _ i).2.symm
  simp only [hlt, hlf] at hex
  have hx : (fun s => ρ' (a + (s - t0) / c)) = fun s =>
      Function.update (Function.update (ρ (a + (s - t0) / c)) p.ind s) (lamName p.ind) 0 := by
    funext s
    rw [hρ', withTime]
    congr 2
    field_simp
    ring
  rw [hx] at hex
  have hnp : ∀ x : Expr, (∀ s ∈ x.free, Plain p s ∧ s ∉ definedNames p) → lamName p.ind ∉ x.free := fun x hx hh =>
    not_plain_lam p _ (hx _ hh).1
  refine (hex.ignore ?_ ?_ ?_ ?_).congr_lam ?_
  · refine ⟨(hnolam hpi).symm, ?_, ?_, ?_⟩
    · intro hh
      simp only [ocpOf, List.map_map, Function.comp_def] at hh
      obtain ⟨d, hd', e1⟩ := List.mem_map.1 hh
      exact hnolam (hpst _ (List.mem_map.2 ⟨d, hd', rfl⟩)) e1
    · intro hh
      exact hnolam (hf.control_mem hp hh).1 rfl
    · intro hh
      exact hnolam (hp.plain _ (by simp only [List.mem_append]; exact Or.inr hh)) rfl
  · exact ⟨ignores_eval (hnp _ (hf.cost_good _ (by simp))), ignores_eval (hnp _ (hf.cost_good _ (by simp))),
      ignores_eval (hnp _ (hf.cost_good _ (by simp)))⟩
  · intro r hr'
    obtain ⟨d, hd', rfl⟩ := List.mem_map.1 hr'
    exact ignores_eval (hnp _ (hf.eom_good d (by rw [hf.states]; exact List.mem_append_left _ hd')))
  · intro k hk
    rcases List.mem_append.1 hk with hk | hk
    · obtain ⟨k0, hk0, rfl⟩ := List.mem_map.1 hk
      exact ignores_eval (hnp _ (hf.con_good k0 (List.mem_append_left _ hk0)))
    · obtain ⟨k0, hk0, rfl⟩ := List.mem_map.1 hk
      exact ignores_eval (hnp _ (hf.con_good k0 (List.mem_append_right _ hk0)))
  · intro τ r hr'
    simp only [ocpOf, List.map_map, Function.comp_def] at hr'
    obtain ⟨d, hd', rfl⟩ := List.mem_map.1 hr'
    refine hoff _ _ (fun e1 => hnolam hpi e1.symm) fun e1 => ?_
    have := str_cancel e1
    dsimp only at this
    exact hdist.1.1.1.1.2.2 _ (List.mem_map.2 ⟨d, hd', rfl⟩) _ (List.mem_singleton_self _) this


/-! ### Concrete cases

Minimise `∫ 1 + u²` from `x = 0` to `x = 1` with `x' = u` and without mention of the time. -/

def stP : Prob := {
  ind := "t"
  states := [⟨"x", sym "u"⟩]
  controls := ["u"]
  costPath := 1 + sym "u" * sym "u"
  initial := [{ expr := sym "x" }]
  terminal := [{ expr := sym "x" - 1 }] }

/-- A solver that knows one equation. -/
def stS : Sympy where
  solve eqs syms := if eqs = [hamiltonianOf (1 + sym "u" * sym "u") [⟨"x", sym "u"⟩]].map (Expr.diff "u") ∧ syms = ["u"]
    then [[("u", -(sym "_lam_x") / 2)]] else []
  lu := cramerLu
  integrate _ _ := 0

def stO : Opts := { controlMethod := .algebraic, momentumShift := false }

theorem st_stated : Stated stP where
  costates := rfl
  coparameters := rfl
  parameters := rfl
  quads := rfl
  law := rfl
  acyclic := ⟨fun _ => 0, by decide⟩
  reg := ⟨rfl, by decide, by decide, by decide, by simp [stP], by decide, by decide⟩
  inside := by decide
  ends := by decide
  bounds := by simp [stP]
  flat := by simp [stP]
  names := by decide
  trig := by decide +kernel
  plain := by decide +kernel
  free := by decide +kernel
  ind := by decide +kernel

theorem st_autonomous : Autonomous stP := by unfold Autonomous; decide +kernel

theorem stS_sound : SolveSound stS := by
  intro U eqs syms sol hs σ hσ e he
  simp only [stS] at hs
  split at hs
  · next hc =>
    obtain ⟨rfl, rfl⟩ := hc
    simp only [List.mem_singleton] at hs
    subst hs
    obtain ⟨e', h1, -, h3⟩ := hσ "u" (by simp)
    cases h1
    simp only [List.map_cons, List.map_nil, List.mem_singleton] at he
    subst he
    simp [hamiltonianOf, diff, eval, lamName] at h3 ⊢
    rw [h3]
    ring
  · cases hs

def stP' : Prob := match indirect stS stO stP with
  | .ok p => p
  | .error _ => {}

theorem stP'_ok : indirect stS stO stP = .ok stP' := by
  have : (match indirect stS stO stP with | .ok _ => true | .error _ => false) = true := by decide +kernel
  rw [stP']
  cases h : indirect stS stO stP with
  | ok p => rfl
  | error e => rw [h] at this; cases this

def stq : Prob := match primal0 stS stP with
  | .ok p => p
  | .error _ => {}

theorem stq_ok : primal0 stS stP = .ok stq := by
  have : (match primal0 stS stP with | .ok _ => true | .error _ => false) = true := by decide +kernel
  rw [stq]
  cases h : primal0 stS stP with
  | ok p => rfl
  | error e => rw [h] at this; cases this

theorem stq_fields : stq.states = [⟨"x", sym "u"⟩] ∧ stq.costPath = 1 + sym "u" * sym "u" ∧ stq.costInitial = 0 ∧
    stq.costTerminal = 0 ∧ stq.initial = [{ expr := sym "x" }] ∧ stq.terminal = [{ expr := sym "x" - 1 }] ∧
    stq.controls = ["u"] := by decide +kernel

theorem stP'_fields : stP'.states = [⟨"x", sym "u" * sym "_deltat"⟩,
      ⟨"_lam_x", -((1 + sym "u" * sym "u" + sym "_lam_x" * sym "u").diff "x") * sym "_deltat"⟩] ∧
    stP'.initial.map Con.expr = [sym "x", sym "_lam_x" + (0 + sym "_nu_0_0" * sym "x").diff "x"] ∧
    stP'.terminal.map Con.expr = [sym "x" - 1, sym "_lam_x" - (0 + sym "_nu_f_0" * (sym "x" - 1)).diff "x",
      (0 + sym "_nu_f_0" * (sym "x" - 1)).diff "t" + (1 + sym "u" * sym "u" + sym "_lam_x" * sym "u")] ∧
    stP'.controls = ["u"] ∧ stP'.controlLaw = [[-(sym "_lam_x") / 2]] ∧ stP'.quads = [] ∧ stP'.ind = "_tau" := by
  decide +kernel

/-- `x` grows with the time, `u = 1`, the costate is `-2`. -/
def stCurve (τ : ℝ) (s : Name) : ℝ :=
  if s = "x" ∨ s = "_tau" then τ else if s = "u" ∨ s = "_deltat" then 1
  else if s = "_lam_x" ∨ s = "_nu_f_0" then -2 else if s = "_nu_0_0" then 2 else 0

theorem stCurve_const (s : Name) (h : s ≠ "x") (h3 : s ≠ "_tau") : Moves 0 1 stCurve 0 s := by
  intro t _
  have : (fun τ => stCurve τ s) = fun _ => stCurve 0 s := by
    funext τ
    simp [stCurve, h, h3]
  rw [this]
  exact hasDerivAt_const _ _

theorem stSolves (U : Name → Nat → ℝ → ℝ) : Solves U stP' 0 1 stCurve where
  follows := by
    intro t ht d hd
    rw [stP'_fields.1] at hd
    simp only [List.mem_cons, List.not_mem_nil, or_false] at hd
    rcases hd with rfl | rfl
    · have : HasDerivAt (fun τ => stCurve τ "x") 1 t := by
        have e : (fun τ => stCurve τ "x") = fun τ => τ := by funext τ; simp [stCurve]
        rw [e]; exact hasDerivAt_id _
      simpa [eval, stCurve] using this
    · have := stCurve_const "_lam_x" (by decide) (by decide) t ht
      simpa [eval, diff, stCurve] using this
  fixed := by
    intro s h1 h2 h3 h4
    rw [stP'_fields.1] at h1
    rw [stP'_fields.2.2.2.2.2.2] at h4
    simp only [List.map_cons, List.mem_cons, not_or] at h1
    exact stCurve_const s h1.1 h4
  law := by
    intro _ t _
    rw [stP'_fields.2.2.2.1, stP'_fields.2.2.2.2.1]
    refine ⟨_, List.mem_singleton_self _, ?_⟩
    simp [eval, stCurve]
  initial := by
    intro c hc
    have : c.expr ∈ stP'.initial.map Con.expr := List.mem_map.2 ⟨c, hc, rfl⟩
    rw [stP'_fields.2.1] at this
    simp only [List.mem_cons, List.not_mem_nil, or_false] at this
    rcases this with h | h <;> rw [h] <;> simp [eval, diff, stCurve]
  terminal := by
    intro c hc
    have : c.expr ∈ stP'.terminal.map Con.expr := List.mem_map.2 ⟨c, hc, rfl⟩
    rw [stP'_fields.2.2.1] at this
    simp only [List.mem_cons, List.not_mem_nil, or_false] at this
    rcases this with h | h | h <;> rw [h]
    · simp [eval, stCurve]
    · change eval _ _ (sym "_lam_x" - (0 + sym "_nu_f_0" * (sym "x" + num (-1) * 1)).diff "x") = 0
      simp [eval, diff, stCurve]
    · change eval _ _ ((0 + sym "_nu_f_0" * (sym "x" + num (-1) * 1)).diff "t" +
        (1 + sym "u" * sym "u" + sym "_lam_x" * sym "u")) = 0
      simp [eval, diff, stCurve]
      norm_num

theorem stRegular (U : Name → Nat → ℝ → ℝ) : Regular stS U stq stP' 0 1 stCurve where
  rates := by
    intro t _
    rw [SmoothRates, stq_fields.1, stq_fields.2.1]
    refine ⟨⟨trivial, trivial, trivial⟩, ?_⟩
    intro s hs
    simp only [List.mem_singleton] at hs
    subst hs
    trivial
  start := by
    rw [SmoothStart, stq_fields.2.2.1, stq_fields.2.2.2.2.1]
    refine ⟨trivial, ?_⟩
    intro c hc
    obtain rfl := List.mem_singleton.1 hc
    trivial
  stop := by
    rw [SmoothStop, stq_fields.2.2.2.1, stq_fields.2.2.2.2.2.1]
    refine ⟨trivial, ?_⟩
    intro c hc
    obtain rfl := List.mem_singleton.1 hc
    exact smooth_sub trivial trivial
  ham := by
    intro t _ u _
    rw [hexpr, stq_fields.1, stq_fields.2.1]
    change Smooth U _ ((1 + sym "u" * sym "u" + sym "_lam_x" * sym "u").diff u)
    simp only [diff]
    refine ⟨⟨?_, ⟨?_, ?_⟩, ?_, ?_⟩, ⟨?_, ?_⟩, ?_, ?_⟩ <;> (try split) <;> trivial
  defined := by
    intro t _ d hd
    rw [stP'_fields.1] at hd
    simp only [List.mem_cons, List.not_mem_nil, or_false] at hd
    rcases hd with rfl | rfl
    · exact ⟨trivial, trivial⟩
    · exact ⟨⟨trivial, ⟨trivial, ⟨trivial, trivial⟩, trivial, trivial⟩, ⟨trivial, trivial⟩, trivial, trivial⟩, trivial⟩
  law := by
    intro t _ opt hopt e he
    rw [stP'_fields.2.2.2.2.1] at hopt
    simp only [List.mem_singleton] at hopt
    subst hopt
    simp only [List.mem_singleton] at he
    subst he
    exact ⟨⟨trivial, trivial⟩, trivial, by simp [eval]⟩
  controls := by
    intro t ht u hu
    rw [stP'_fields.2.2.2.1] at hu
    simp only [List.mem_singleton] at hu
    subst hu
    exact (stCurve_const "u" (by decide) (by decide) t ht).differentiableAt
  form := by
    intro om hom
    have : stP'.omega = none := by decide +kernel
    rw [this] at hom
    cases hom

theorem st_completes (U : Name → Nat → ℝ → ℝ) : Completes U stP id where
  off := fun _ _ _ => rfl
  quantities := by simp [stP]
  switches := by simp [stP]
  trig := by simp [TrigEnv, stP]

/-- The generated boundary value problem has a solution, and it is an extremal over every interval of length one. -/
example (U : Name → Nat → ℝ → ℝ) (t0 : ℝ) : ∃ B ν₀ ν₁, Extremal (userOcp U id B stP) t0 (t0 + 1)
    (fun s => Function.update (stCurve (s - t0)) "t" s) (fun s n => stCurve (s - t0) ("_lam_" ++ n)) ν₀ ν₁ := by
  obtain ⟨q, B, hq, -, h⟩ := C64_unshifted_partial (luSound_cramer stS rfl) st_stated st_autonomous rfl (Or.inl rfl)
    (fun _ => stS_sound) stP'_ok
  have e : q = stq := Except.ok.inj (hq.symm.trans stq_ok)
  subst e
  have h1 := h U id (st_completes U) 0 1 stCurve zero_le_one (stSolves U) (stRegular U) 1 rfl one_pos t0
  have e : ∀ s, (0 : ℝ) + (s - t0) / 1 = s - t0 := fun s => by rw [div_one, zero_add]
  simp only [e, sub_zero, mul_one] at h1
  exact ⟨B, _, _, h1⟩

/-! Minimise `∫ u² + 2 x` with `x' = u`, from `x = 0` to `x = 0`. -/

def wrP : Prob := {
  ind := "t"
  states := [⟨"x", sym "u"⟩]
  controls := ["u"]
  costPath := sym "u" * sym "u" + (sym "x" + sym "x")
  initial := [{ expr := sym "x" }]
  terminal := [{ expr := sym "x" }] }

def wrH : Expr := hamiltonianOf (sym "u" * sym "u" + (sym "x" + sym "x")) [⟨"x", sym "u"⟩]

/-- The rates of the state and the costate. -/
def wrDyn : List Dyn := [⟨"x", sym "u"⟩, ⟨"_lam_x", -(wrH.diff "x")⟩]

/-- A solver that knows the three systems of this problem. -/
def wrS : Sympy where
  solve _ _ := []
  lu M b :=
    if M = standardForm 1 ∧ b = [wrH.diff "x", wrH.diff "_lam_x"] then .ok [-(wrH.diff "_lam_x"), wrH.diff "x"]
    else if M = ctlMatrix wrH ["u"] ∧ b = ctlRhs wrH ["u"] wrDyn then .ok [1]
    else if M = controlForm 2 1 0 [1] ∧ b = [wrH.diff "x", wrH.diff "u", wrH.diff "_lam_x", wrH.diff "_lam_u"] then
      .ok [-(wrH.diff "_lam_x"), -(wrH.diff "_lam_x") - wrH.diff "_lam_u", wrH.diff "x" + wrH.diff "u", wrH.diff "u"]
    else .error .notImplementedError
  integrate _ _ := 0

def wrO : Opts := { method := .diffyg, momentumShift := false, normalizeTime := false }

theorem wrS_sound : LuSound wrS where
  length := by
    intro M b x h
    simp only [wrS] at h
    split at h
    · next hc => obtain ⟨rfl, rfl⟩ := hc; cases h; rfl
    · split at h
      · next hc => obtain ⟨rfl, rfl⟩ := hc; cases h; rfl
      · split at h
        · next hc => obtain ⟨rfl, rfl⟩ := hc; cases h; rfl
        · cases h
  solves := by
    intro M b x h K _ I ρ i hi _
    simp only [wrS] at h
    split at h
    · next hc =>
      obtain ⟨rfl, rfl⟩ := hc; cases h
      have hl : (standardForm 1).length = 2 := rfl
      rw [hl] at hi ⊢
      rw [Finset.sum_range_succ, Finset.sum_range_succ, Finset.sum_range_zero]
      rcases (by omega : i = 0 ∨ i = 1) with rfl | rfl <;> simp [entry, standardForm, List.range_succ, eval]
    · split at h
      · next hc =>
        obtain ⟨rfl, rfl⟩ := hc; cases h
        have hl : (ctlMatrix wrH ["u"]).length = 1 := rfl
        rw [hl] at hi ⊢
        rw [Finset.sum_range_succ, Finset.sum_range_zero]
        obtain rfl : i = 0 := by omega
        simp [entry, ctlMatrix, ctlRhs, gOf, negDot, wrDyn, wrH, hamiltonianOf, lamName, diff, eval]
      · split at h
        · next hc =>
          obtain ⟨rfl, rfl⟩ := hc; cases h
          have hl : (controlForm 2 1 0 [1]).length = 4 := rfl
          rw [hl] at hi ⊢
          rw [Finset.sum_range_succ, Finset.sum_range_succ, Finset.sum_range_succ, Finset.sum_range_succ,
            Finset.sum_range_zero]
          rcases (by omega : i = 0 ∨ i = 1 ∨ i = 2 ∨ i = 3) with rfl | rfl | rfl | rfl <;>
            simp [entry, controlForm, List.range_succ, eval]
        · cases h

theorem wr_stated : Stated wrP where
  costates := rfl
  coparameters := rfl
  parameters := rfl
  quads := rfl
  law := rfl
  acyclic := ⟨fun _ => 0, by decide⟩
  reg := ⟨rfl, by decide, by decide, by decide, by simp [wrP], by decide, by decide⟩
  inside := by decide
  ends := by decide
  bounds := by simp [wrP]
  flat := by simp [wrP]
  names := by decide
  trig := by decide +kernel
  plain := by decide +kernel
  free := by decide +kernel
  ind := by decide +kernel

theorem wr_autonomous : Autonomous wrP := by unfold Autonomous; decide +kernel

def wrP' : Prob := match indirect wrS wrO wrP with
  | .ok p => p
  | .error _ => {}

theorem wrP'_ok : indirect wrS wrO wrP = .ok wrP' := by
  have : (match indirect wrS wrO wrP with | .ok _ => true | .error _ => false) = true := by decide +kernel
  rw [wrP']
  cases h : indirect wrS wrO wrP with
  | ok p => rfl
  | error e => rw [h] at this; cases this

theorem wrP'_fields : wrP'.states = [⟨"x", -(-(wrH.diff "_lam_x"))⟩, ⟨"u", -(-(wrH.diff "_lam_x") - wrH.diff "_lam_u")⟩,
      ⟨"_lam_x", -(wrH.diff "x" + wrH.diff "u")⟩, ⟨"_lam_u", -(wrH.diff "u")⟩] ∧
    wrP'.initial.map Con.expr = [sym "x", sym "_lam_x" + (0 + sym "_nu_0_0" * sym "x").diff "x", sym "_lam_u"] ∧
    wrP'.terminal.map Con.expr = [sym "x", sym "_lam_x" - (0 + sym "_nu_f_0" * sym "x").diff "x",
      (0 + sym "_nu_f_0" * sym "x").diff "t" + wrH, wrH.diff "u"] ∧
    wrP'.controls = [] ∧ wrP'.quads = [] ∧ wrP'.ind = "t" := by
  decide +kernel

/-- The state stays where it is. -/
noncomputable def wrCurve (τ : ℝ) (s : Name) : ℝ :=
  if s = "t" then τ else if s = "_lam_x" then 2 * Real.exp (1 - τ) - 2
  else if s = "_lam_u" then 2 * Real.exp (1 - τ) + 2 * τ - 2 * Real.exp 1
  else if s = "_nu_0_0" then 2 - 2 * Real.exp 1 else 0

theorem wrCurve_const (s : Name) (h : s ≠ "t") (h2 : s ≠ "_lam_x") (h3 : s ≠ "_lam_u") : Moves 0 1 wrCurve 0 s := by
  intro t _
  have : (fun τ => wrCurve τ s) = fun _ => wrCurve 0 s := by
    funext τ
    simp [wrCurve, h, h2, h3]
  rw [this]
  exact hasDerivAt_const _ _

theorem wrExp (t : ℝ) : HasDerivAt (fun τ : ℝ => 2 * Real.exp (1 - τ)) (-(2 * Real.exp (1 - t))) t := by
  have h := (((hasDerivAt_id t).const_sub 1).exp).const_mul 2
  exact h.congr_deriv (by simp)

theorem wrSolves (U : Name → Nat → ℝ → ℝ) : Solves U wrP' 0 1 wrCurve where
  follows := by
    intro t ht d hd
    rw [wrP'_fields.1] at hd
    simp only [List.mem_cons, List.not_mem_nil, or_false] at hd
    rcases hd with rfl | rfl | rfl | rfl
    · have := wrCurve_const "x" (by decide) (by decide) (by decide) t ht
      simpa [eval, diff, wrCurve, wrH, hamiltonianOf, lamName] using this
    · have := wrCurve_const "u" (by decide) (by decide) (by decide) t ht
      simpa [eval, diff, wrCurve, wrH, hamiltonianOf, lamName] using this
    · have e : (fun τ => wrCurve τ "_lam_x") = fun τ => 2 * Real.exp (1 - τ) - 2 := by funext τ; simp [wrCurve]
      have := (wrExp t).sub_const 2
      rw [← e] at this
      refine this.congr_deriv ?_
      simp [eval, diff, wrCurve, wrH, hamiltonianOf, lamName]
      ring
    · have e : (fun τ => wrCurve τ "_lam_u") = fun τ => 2 * Real.exp (1 - τ) + 2 * τ - 2 * Real.exp 1 := by
        funext τ; simp [wrCurve]
      have := ((wrExp t).add ((hasDerivAt_id t).const_mul 2)).sub_const (2 * Real.exp 1)
      have e2 : HasDerivAt (fun τ => wrCurve τ "_lam_u") (-(2 * Real.exp (1 - t)) + 2 * 1) t := by
        rw [e]; exact this
      refine e2.congr_deriv ?_
      simp [eval, diff, wrCurve, wrH, hamiltonianOf, lamName]
      ring
  fixed := by
    intro s h1 h2 h3 h4
    rw [wrP'_fields.1] at h1
    rw [wrP'_fields.2.2.2.2.2] at h4
    simp only [List.map_cons, List.map_nil, List.mem_cons, List.not_mem_nil, or_false, not_or] at h1
    exact wrCurve_const s h4 h1.2.2.1 h1.2.2.2
  law := by
    intro h
    rw [wrP'_fields.2.2.2.1] at h
    exact absurd rfl h
  initial := by
    intro c hc
    have : c.expr ∈ wrP'.initial.map Con.expr := List.mem_map.2 ⟨c, hc, rfl⟩
    rw [wrP'_fields.2.1] at this
    simp only [List.mem_cons, List.not_mem_nil, or_false] at this
    rcases this with h | h | h <;> rw [h] <;> simp [eval, diff, wrCurve]
  terminal := by
    intro c hc
    have : c.expr ∈ wrP'.terminal.map Con.expr := List.mem_map.2 ⟨c, hc, rfl⟩
    rw [wrP'_fields.2.2.1] at this
    simp only [List.mem_cons, List.not_mem_nil, or_false] at this
    rcases this with h | h | h | h <;> rw [h] <;> simp [eval, diff, wrCurve, wrH, hamiltonianOf, lamName]

/-- With the method 'diffyg' and differential control, the option `momentumShift` is needed: without it, the code takes the
last state for the time when it extends the symplectic form (mapping_functions.py:470-480), the controls get the wrong rate,
and a solution of the generated boundary value problem need not be an extremal, for no choice of costates and multipliers,
even for a problem without explicit time. -/
theorem C64_violated_unshifted : ∃ S o p p', LuSound S ∧ Stated p ∧ Autonomous p ∧ o.momentumShift = false ∧
    o.method = .diffyg ∧ o.controlMethod = .differential ∧ o.normalizeTime = false ∧ indirect S o p = .ok p' ∧
      ∀ U, Completes U p id ∧ ∃ ρ, Solves U p' 0 1 ρ ∧ ∀ B lam ν₀ ν₁,
        ¬ Extremal (userOcp U id B p) 0 1 (fun s => Function.update (ρ s) p.ind s) lam ν₀ ν₁ := by
  refine ⟨wrS, wrO, wrP, wrP', wrS_sound, wr_stated, wr_autonomous, rfl, rfl, rfl, rfl, wrP'_ok, fun U =>
    ⟨⟨fun _ _ _ => rfl, by simp [wrP], by simp [wrP], by simp [TrigEnv, wrP]⟩, wrCurve, wrSolves U, ?_⟩⟩
  intro B lam ν₀ ν₁ h
  have hham : ∀ l σ, (userOcp U id B wrP).ham l σ = σ "u" * σ "u" + (σ "x" + σ "x") + l "x" * σ "u" := by
    intro l σ
    simp [Ocp.ham, userOcp, wrP, penalties, eval]
  have hz : ∀ t ∈ Set.Icc (0 : ℝ) 1, lam t "x" = 0 := by
    intro t ht
    have h1 := h.stationary "u" (by simp [userOcp, wrP, epsControls]) t ht
    have h2 : HasDerivAt (fun v : ℝ => v * v + lam t "x" * v) (0 + 0 + lam t "x") 0 := by
      have := ((hasDerivAt_id (0 : ℝ)).mul (hasDerivAt_id (0 : ℝ))).add ((hasDerivAt_id (0 : ℝ)).const_mul (lam t "x"))
      exact this.congr_deriv (by simp)
    have h3 : HasDerivAt (fun v : ℝ => v * v + lam t "x" * v) 0 0 := by
      rw [HasPartial] at h1
      simp only [hham] at h1
      simpa [wrP, wrCurve] using h1
    simpa using h2.unique h3
  obtain ⟨d, h1, h2⟩ := h.adjoint ("x", fun σ => eval (real U) (id σ) (sym "u")) (by simp [userOcp, wrP]) (1 / 2)
    (by constructor <;> norm_num)
  have h3 : HasDerivAt (fun τ => lam τ "x") 0 (1 / 2) := by
    refine (hasDerivAt_const (1 / 2 : ℝ) (0 : ℝ)).congr_of_eventuallyEq ?_
    filter_upwards [Icc_mem_nhds (by norm_num : (0 : ℝ) < 1 / 2) (by norm_num : (1 / 2 : ℝ) < 1)] with t ht
    exact hz t ht
  have hd : d = 0 := by simpa using h2.unique h3
  subst hd
  have h4 : HasDerivAt (fun v : ℝ => v + v) 0 0 := by
    rw [HasPartial] at h1
    simp only [hham] at h1
    simpa [wrP, wrCurve] using h1
  have h5 := ((hasDerivAt_id (0 : ℝ)).add (hasDerivAt_id (0 : ℝ))).unique h4
  norm_num at h5

end Beluga.Opt
