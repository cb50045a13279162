import Verif.Extremal.User

/-! # From extremals to the dual problem -/

namespace Beluga.Opt

open Beluga.Sym Beluga.Sym.Expr

variable {U : Name → Nat → ℝ → ℝ}

theorem HasPartial.unique {f : Env → ℝ} {x : Name} {d d' : ℝ} {σ : Env} (h : HasPartial f x d σ) (h' : HasPartial f x d' σ) :
    d = d' := HasDerivAt.unique h h'

/-- A partial derivative at one point is one at another point, if the function does not tell them apart. -/
theorem hasPartial_transfer {f : Env → ℝ} {G : Name → Prop} (hf : ∀ σ σ' : Env, (∀ s, G s → σ s = σ' s) → f σ = f σ')
    {x : Name} (hx : G x) {d : ℝ} {σ σ' : Env} (hσ : ∀ s, G s → σ s = σ' s) (h : HasPartial f x d σ) :
    HasPartial f x d σ' := by
  rw [HasPartial] at h ⊢
  rw [← hσ x hx]
  have : (fun z => f (Function.update σ' x z)) = fun z => f (Function.update σ x z) := by
    funext z
    refine hf _ _ fun s hs => ?_
    by_cases e : s = x
    · subst e; simp
    · rw [Function.update_of_ne e, Function.update_of_ne e, hσ s hs]
  rw [this]
  exact h

/-- The symbols that occur in `q` satisfy `G`. -/
structure Within (q : Prob) (G : Name → Prop) : Prop where
  states : ∀ d ∈ q.states, G d.name ∧ ∀ s ∈ d.eom.free, G s
  controls : ∀ u ∈ q.controls, G u
  cons : ∀ c ∈ q.initial ++ q.terminal, ∀ s ∈ c.expr.free, G s
  costs : ∀ e ∈ [q.costInitial, q.costPath, q.costTerminal], ∀ s ∈ e.free, G s

/-- The curve `ρ` carries an extremal: it runs through `x` with time `A + c (τ - a)`, and has the costates and multipliers
as values of further symbols; the costate of time is the negative of the Hamiltonian. -/
structure Lifts (U : Name → Nat → ℝ → ℝ) (q : Prob) (t : Name) (init : List Dyn) (G : Name → Prop) (A c a b : ℝ)
    (x : ℝ → Env) (lam : ℝ → Name → ℝ) (ν₀ ν₁ : Nat → ℝ) (ρ : ℝ → Env) : Prop where
  states : ∀ d ∈ init, ∀ τ, ρ τ d.name = x (A + c * (τ - a)) d.name
  controls : ∀ u ∈ q.controls, ∀ τ, ρ τ u = x (A + c * (τ - a)) u
  time : ∀ τ, ρ τ t = A + c * (τ - a)
  rest : ∀ s, G s → s ∉ q.states.map Dyn.name → s ∉ q.controls →
    (∀ τ, ρ τ s = x A s) ∧ ∀ τ ∈ Set.Icc a b, x (A + c * (τ - a)) s = x A s
  costate : ∀ d ∈ init, ∀ τ, ρ τ (lamName d.name) = lam (A + c * (τ - a)) d.name
  lam_time : ∀ τ, ρ τ (lamName t) =
    -((ocpOf U t init [] q).ham (lam (A + c * (τ - a))) (ρ τ))
  start : ∀ i < q.initial.length, ∀ τ, ρ τ ("_nu_0_" ++ toString i) = ν₀ i
  stop : ∀ i < q.terminal.length, ∀ τ, ρ τ ("_nu_f_" ++ toString i) = ν₁ i

theorem lagrange_congr_nu {cost : Env → ℝ} {cons : List (Env → ℝ)} {ν ν' : Nat → ℝ} (h : ∀ i < cons.length, ν i = ν' i)
    (σ : Env) : lagrange cost cons ν σ = lagrange cost cons ν' σ := by
  rw [lagrange, lagrange]
  congr 2
  refine List.map_congr_left fun r hr => ?_
  have := List.snd_lt_of_mem_zipIdx hr
  rw [h r.2 (by omega)]

theorem lagrange_within {cost : Expr} {cons : List Con} {G : Name → Prop} (hc : ∀ s ∈ cost.free, G s)
    (hs : ∀ c ∈ cons, ∀ s ∈ c.expr.free, G s) (ν : Nat → ℝ) (σ σ' : Env) (h : ∀ s, G s → σ s = σ' s) :
    lagrange (fun σ => eval (real U) σ cost) (cons.map fun c σ => eval (real U) σ c.expr) ν σ =
      lagrange (fun σ => eval (real U) σ cost) (cons.map fun c σ => eval (real U) σ c.expr) ν σ' := by
  rw [lagrange, lagrange, List.zipIdx_map, List.map_map, List.map_map]
  congr 1
  · exact eval_congr _ fun s hs => h s (hc s hs)
  · congr 1
    refine List.map_congr_left fun r hr => ?_
    have hm : r.1 ∈ cons := List.fst_mem_of_mem_zipIdx hr
    simp only [Function.comp_apply, Prod.map_fst, Prod.map_snd, id]
    rw [eval_congr (real U) fun s hsf => h s (hs r.1 hm s hsf)]

section
variable {q : Prob} {t : Name} {init : List Dyn} {G : Name → Prop} {fixed : List Name}

theorem ham_within (hw : Within q G) (hi : ∀ d ∈ init, d ∈ q.states) (l : Name → ℝ) (σ σ' : Env)
    (h : ∀ s, G s → σ s = σ' s) : (ocpOf U t init fixed q).ham l σ = (ocpOf U t init fixed q).ham l σ' := by
  rw [Ocp.ham, Ocp.ham]
  congr 1
  · exact eval_congr _ fun s hs => h s (hw.costs _ (by simp) s hs)
  · congr 1
    refine List.map_congr_left fun r hr => ?_
    obtain ⟨d, hd, rfl⟩ := List.mem_map.1 hr
    dsimp only
    rw [eval_congr (real U) fun s hsf => h s ((hw.states d (hi d hd)).2 s hsf)]

theorem ham_costates {l l' : Name → ℝ} (h : ∀ d ∈ init, l d.name = l' d.name) (σ : Env) :
    (ocpOf U t init fixed q).ham l σ = (ocpOf U t init fixed q).ham l' σ := by
  rw [Ocp.ham, Ocp.ham]
  congr 2
  refine List.map_congr_left fun r hr => ?_
  obtain ⟨d, hd, rfl⟩ := List.mem_map.1 hr
  dsimp only
  rw [h d hd]

end

/-- A curve that carries an extremal solves the dual problem. -/
theorem Lifts.dual {q : Prob} (hn : Named q) {t : Name} {init : List Dyn} (hst : q.states = init ++ [⟨t, 1⟩])
    {G : Name → Prop} (hw : Within q G) {fixed : List Name} {A B c a b : ℝ} {x : ℝ → Env} {lam : ℝ → Name → ℝ} {ν₀ ν₁ : Nat → ℝ}
    (he : Extremal (ocpOf U t init fixed q) A B x lam ν₀ ν₁) (hc : 0 < c) (hab : a ≤ b) (hB : B = A + c * (b - a))
    {ρ : ℝ → Env} (h : Lifts U q t init G A c a b x lam ν₀ ν₁ ρ)
    (hu : ∀ u ∈ q.controls, ∀ s ∈ Set.Icc A B, DifferentiableAt ℝ (fun s => x s u) s)
    (hsm : ∀ t ∈ Set.Icc a b, SmoothRates q U (ρ t)) (hsa : SmoothStart q U (ρ a)) (hsb : SmoothStop q U (ρ b)) :
    DualSol U q c a b ρ := by
  have hmemi : ∀ d ∈ init, d ∈ q.states := fun d hd => by simp [hst, hd]
  have hmemt : (⟨t, 1⟩ : Dyn) ∈ q.states := by simp [hst]
  have hin : ∀ τ ∈ Set.Icc a b, A + c * (τ - a) ∈ Set.Icc A B := by
    intro τ hτ
    have h1 := mul_nonneg hc.le (sub_nonneg.2 hτ.1)
    have h2 := mul_le_mul_of_nonneg_left (sub_le_sub_right hτ.2 a) hc.le
    constructor <;> linarith
  have hθ : ∀ τ, HasDerivAt (fun τ => A + c * (τ - a)) c τ := by
    intro τ
    have := (((hasDerivAt_id' τ).sub_const a).const_mul c).const_add A
    rwa [mul_one] at this
  have hea : A + c * (a - a) = A := by ring
  have heb : A + c * (b - a) = B := hB.symm
  -- along the interval the two curves agree
  have hag : ∀ τ ∈ Set.Icc a b, ∀ s, G s → ρ τ s = x (A + c * (τ - a)) s := by
    intro τ hτ s hs
    by_cases h1 : s ∈ q.states.map Dyn.name
    · obtain ⟨d, hd, rfl⟩ := List.mem_map.1 h1
      rw [hst, List.mem_append, List.mem_singleton] at hd
      rcases hd with hd | rfl
      · exact h.states d hd τ
      · exact (h.time τ).trans (he.time _ (hin τ hτ)).symm
    · by_cases h2 : s ∈ q.controls
      · exact h.controls s h2 τ
      · obtain ⟨h3, h4⟩ := h.rest s hs h1 h2
        rw [h3 τ, h4 τ hτ]
  have hlamne : ∀ x ∈ q.states.map Dyn.name ++ q.controls, ∀ s ∈ q.states, x ≠ lamName s.name := by
    intro x hx s hs e
    have hnd := hn.nodup
    rw [List.append_assoc, List.nodup_append] at hnd
    have hl : lamName s.name ∈ q.states.map (fun s => lamName s.name) := List.mem_map.2 ⟨s, hs, rfl⟩
    rcases List.mem_append.1 hx with hx | hx
    · exact hnd.2.2 x hx _ (List.mem_append_left _ hl) e
    · exact (List.nodup_append.1 hnd.2.1).2.2 _ hl x hx e.symm
  have hGm : ∀ y ∈ q.states.map Dyn.name ++ q.controls, G y := by
    intro y hy
    rcases List.mem_append.1 hy with hy | hy
    · obtain ⟨d, hd, rfl⟩ := List.mem_map.1 hy
      exact (hw.states d hd).1
    · exact hw.controls y hy
  -- the partial derivatives of the Hamiltonian
  have hval : ∀ τ ∈ Set.Icc a b, ∀ y ∈ q.states.map Dyn.name ++ q.controls, ∀ d,
      HasPartial ((ocpOf U t init fixed q).ham (lam (A + c * (τ - a)))) y d (x (A + c * (τ - a))) →
      d = eval (real U) (ρ τ) ((hexpr q).diff y) := by
    intro τ hτ y hy d hd
    have h1 := hasPartial_transfer (ham_within hw hmemi _) (hGm y hy) (fun s hs => (hag τ hτ s hs).symm) hd
    have h2 := ham_partial (fixed := fixed) hst (hlamne y hy) (hasPartial_H (hsm τ hτ) y)
    have h3 := (hasPartial_congr fun z => ham_costates (U := U) (t := t) (fixed := fixed) (q := q) (init := init)
      (l := fun n => ρ τ (lamName n)) (l' := lam (A + c * (τ - a))) (fun d hd => h.costate d hd τ) _).1 h2
    exact h1.unique h3
  have hstates : ∀ τ ∈ Set.Icc a b, ∀ d ∈ init, HasDerivAt (fun τ => ρ τ d.name) (c * eval (real U) (ρ τ) d.eom) τ := by
    intro τ hτ d hd
    have h1 := he.motion (d.name, fun σ => eval (real U) σ d.eom) (List.mem_map.2 ⟨d, hd, rfl⟩) _ (hin τ hτ)
    have h2 := HasDerivAt.comp τ h1 (hθ τ)
    have e : (fun τ => ρ τ d.name) = (fun τ => x τ d.name) ∘ fun τ => A + c * (τ - a) := by
      funext τ; exact h.states d hd τ
    rw [e]
    refine h2.congr_deriv ?_
    dsimp only
    rw [← eval_congr (real U) fun s hs => hag τ hτ s ((hw.states d (hmemi d hd)).2 s hs), mul_comm]
  have hlams : ∀ τ ∈ Set.Icc a b, ∀ d ∈ init, HasDerivAt (fun τ => ρ τ (lamName d.name))
      (c * eval (real U) (ρ τ) (-((hexpr q).diff d.name))) τ := by
    intro τ hτ d hd
    obtain ⟨v, h0, h1⟩ := he.adjoint (d.name, fun σ => eval (real U) σ d.eom) (List.mem_map.2 ⟨d, hd, rfl⟩) _ (hin τ hτ)
    have h2 := HasDerivAt.comp τ h1 (hθ τ)
    have e : (fun τ => ρ τ (lamName d.name)) = (fun τ => lam τ d.name) ∘ fun τ => A + c * (τ - a) := by
      funext τ; exact h.costate d hd τ
    rw [e]
    refine h2.congr_deriv ?_
    rw [hval τ hτ d.name (List.mem_append_left _ (List.mem_map_of_mem (hmemi d hd))) v h0, eval_neg]
    ring
  have hctl : ∀ τ ∈ Set.Icc a b, ∀ u ∈ q.controls, ∃ v, HasDerivAt (fun τ => ρ τ u) v τ := by
    intro τ hτ u hum
    have h2 := HasDerivAt.comp τ (hu u hum _ (hin τ hτ)).hasDerivAt (hθ τ)
    have e : (fun τ => ρ τ u) = (fun τ => x τ u) ∘ fun τ => A + c * (τ - a) := by
      funext τ; exact h.controls u hum τ
    exact ⟨_, by rw [e]; exact h2⟩
  have hsta : ∀ u ∈ q.controls, ∀ τ ∈ Set.Icc a b, eval (real U) (ρ τ) ((hexpr q).diff u) = 0 := by
    intro u hum τ hτ
    exact (hval τ hτ u (List.mem_append_right _ hum) 0 (he.stationary u hum _ (hin τ hτ))).symm
  -- the Hamiltonian without time's costate
  have hH0 : hexpr q = hamiltonianOf q.costPath init + sym (lamName t) * 1 := by
    rw [hexpr, hst, hamiltonianOf, List.foldl_append]; rfl
  have hev : ∀ τ, eval (real U) (ρ τ) (hamiltonianOf q.costPath init) =
      (ocpOf U t init fixed q).ham (lam (A + c * (τ - a))) (ρ τ) := by
    intro τ
    have e1 := eval_hamiltonianOf { q with states := init } U (ρ τ)
    rw [show hamiltonianOf q.costPath init = hamiltonianOf ({ q with states := init } : Prob).costPath
      ({ q with states := init } : Prob).states from rfl, e1, Hval, Ocp.ham]
    simp only [ocpOf, List.map_map, Function.comp_def]
    congr 2
    refine List.map_congr_left fun d hd => ?_
    have := h.costate d hd τ
    rw [lamName] at this
    rw [this]
  have hlt : ∀ τ, ρ τ (lamName t) = -eval (real U) (ρ τ) (hamiltonianOf q.costPath init) := by
    intro τ
    rw [hev, h.lam_time]
    rfl
  have htt : t ≠ lamName t := hlamne t (List.mem_append_left _ (List.mem_map.2 ⟨_, hmemt, rfl⟩)) _ hmemt
  have hdt : ∀ y, y ≠ lamName t → ∀ σ : Env, eval (real U) σ ((hexpr q).diff y) =
      eval (real U) σ ((hamiltonianOf q.costPath init).diff y) := by
    intro y hy σ
    rw [hH0]
    change eval (real U) σ ((hamiltonianOf q.costPath init).diff y + _) = _
    rw [eval_add, eval_diff_of_not_mem (e := sym (lamName t) * 1), add_zero]
    change y ∉ [lamName t] ++ []
    simpa using hy
  have hlamt : ∀ τ ∈ Set.Icc a b, HasDerivAt (fun τ => ρ τ (lamName t)) (c * eval (real U) (ρ τ) (-((hexpr q).diff t))) τ := by
    intro τ hτ
    rw [show (fun τ => ρ τ (lamName t)) = fun τ => -eval (real U) (ρ τ) (hamiltonianOf q.costPath init) from funext hlt]
    have hq0 : SmoothRates { q with states := init } U (ρ τ) := ⟨(hsm τ hτ).1, fun s hs => (hsm τ hτ).2 s (hmemi s hs)⟩
    have hlf : LamFresh { q with states := init } := by
      refine ⟨?_, fun s hs => hn.lam.cost s (hmemi s hs), fun s hs r hr => hn.lam.rates s (hmemi s hs) r (hmemi r hr)⟩
      have := hn.lam.nodup
      rw [hst, List.map_append, List.nodup_append] at this
      exact this.1
    have hnd : (init.map Dyn.name ++ [t] ++ init.map (fun s => lamName s.name) ++ q.controls).Nodup := by
      have := hn.nodup
      rw [hst] at this
      simp only [List.map_append, List.map_cons, List.map_nil] at this
      refine List.Nodup.sublist ?_ this
      refine List.Sublist.append_right ?_ _
      refine List.Sublist.append_left ?_ _
      exact List.sublist_append_left _ _
    have hti : HasDerivAt (fun τ => ρ τ t) c τ := by
      rw [show (fun τ => ρ τ t) = fun τ => A + c * (τ - a) from funext h.time]
      exact hθ τ
    have hfree : ∀ s ∈ (hamiltonianOf q.costPath init).free, s ∈ init.map Dyn.name ++ [t] ++
        init.map (fun s => lamName s.name) ++ q.controls ∨ ∀ τ, ρ τ s = x A s := by
      intro s hs
      rw [or_iff_not_imp_left]
      intro hsn
      simp only [List.mem_append, not_or, List.mem_singleton] at hsn
      have hG : G s := by
        rw [hamiltonianOf] at hs
        rcases foldl_add_free _ _ _ _ hs with hs | ⟨d, hd, hs⟩
        · exact hw.costs _ (by simp) s hs
        · have hs : s ∈ [lamName d.name] ++ d.eom.free := hs
          rcases List.mem_append.1 hs with hs | hs
          · exact absurd (List.mem_map.2 ⟨d, hd, (List.mem_singleton.1 hs).symm⟩) hsn.1.2
          · exact (hw.states d (hmemi d hd)).2 s hs
      refine (h.rest s hG ?_ hsn.2).1
      rw [hst, List.map_append, List.mem_append]
      rintro (hh | hh)
      · exact hsn.1.1.1 hh
      · exact hsn.1.1.2 (List.mem_singleton.1 hh)
    have hconst : ∀ s, (∀ τ, ρ τ s = x A s) → HasDerivAt (fun τ => ρ τ s) 0 τ := by
      intro s hs
      rw [show (fun τ => ρ τ s) = fun _ => x A s from funext hs]
      exact hasDerivAt_const _ _
    have hd := hasDerivAt_eval (U := U) (ρ := ρ) (v := fun s => deriv (fun τ => ρ τ s) τ) (t := τ) hnd
      (e := hamiltonianOf q.costPath init)
      (by
        intro s hs
        rcases hfree s hs with hm | hm
        · simp only [List.mem_append, List.mem_map, List.mem_singleton] at hm
          rcases hm with ((⟨d, hd, rfl⟩ | rfl) | ⟨d, hd, rfl⟩) | hm
          · exact (hstates τ hτ d hd).differentiableAt.hasDerivAt
          · exact hti.differentiableAt.hasDerivAt
          · exact (hlams τ hτ d hd).differentiableAt.hasDerivAt
          · obtain ⟨v, hv⟩ := hctl τ hτ s hm
            exact hv.differentiableAt.hasDerivAt
        · exact (hconst s hm).differentiableAt.hasDerivAt)
      (by
        intro s hs
        rcases hfree s hs with hm | hm
        · exact Or.inl hm
        · exact Or.inr (hconst s hm).deriv)
      (smooth_hamiltonianOf hq0)
    refine hd.neg.congr_deriv ?_
    simp only [List.map_append, List.sum_append, List.map_map, Function.comp_def, List.map_cons, List.map_nil, List.sum_cons,
      List.sum_nil, add_zero]
    have e1 : (init.map fun s => eval (real U) (ρ τ) ((hamiltonianOf q.costPath init).diff s.name) * deriv (fun τ => ρ τ s.name) τ).sum +
        (init.map fun s => eval (real U) (ρ τ) ((hamiltonianOf q.costPath init).diff (lamName s.name)) *
          deriv (fun τ => ρ τ (lamName s.name)) τ).sum = 0 := by
      rw [← List.sum_map_add]
      refine sum_zero' fun y hy => ?_
      obtain ⟨s, hs, rfl⟩ := List.mem_map.1 hy
      have e2 := diff_lam hlf (s := s) hs (real U) (ρ τ)
      rw [(hstates τ hτ s hs).deriv, (hlams τ hτ s hs).deriv]
      rw [show lamName s.name = "_lam_" ++ s.name from rfl, e2, eval_neg, hdt s.name (hlamne s.name
        (List.mem_append_left _ (List.mem_map_of_mem (hmemi s hs))) _ hmemt)]
      ring
    have e3 : (q.controls.map fun u => eval (real U) (ρ τ) ((hamiltonianOf q.costPath init).diff u) *
        deriv (fun τ => ρ τ u) τ).sum = 0 := by
      refine sum_zero' fun y hy => ?_
      obtain ⟨u, hum, rfl⟩ := List.mem_map.1 hy
      rw [← hdt u (hlamne u (List.mem_append_right _ hum) _ hmemt), hsta u hum τ hτ, zero_mul]
    rw [e3, hti.deriv, eval_neg, hdt t htt]
    linarith
  -- the ends
  have hsplit : ∀ d ∈ q.states, d ∈ init ∨ d = ⟨t, 1⟩ := by
    intro d hd
    rw [hst, List.mem_append, List.mem_singleton] at hd
    exact hd
  have haI : a ∈ Set.Icc a b := ⟨le_refl _, hab⟩
  have hbI : b ∈ Set.Icc a b := ⟨hab, le_refl _⟩
  have h0 : ∀ d ∈ q.states, eval (real U) (ρ a) ((phi0 q).diff d.name) = -(ρ a (lamName d.name)) := by
    intro d hd
    have h1 := lagrange_partial (fun i => (hn.nu d hd i).1)
      (hasPartial_end "_nu_0_" hsa.1 hsa.2 d.name)
    have h2 := (hasPartial_congr fun z => lagrange_congr_nu (ν' := ν₀)
      (fun i hi => h.start i (by simpa using hi) a) _).1 h1
    have h3 : HasPartial (lagrange (fun σ => eval (real U) σ q.costInitial)
        (q.initial.map fun c σ => eval (real U) σ c.expr) ν₀) d.name (-(ρ a (lamName d.name))) (x A) := by
      rcases hsplit d hd with hd' | rfl
      · have := he.start (d.name, fun σ => eval (real U) σ d.eom) (List.mem_map.2 ⟨d, hd', rfl⟩)
        rw [h.costate d hd' a, hea]
        exact this
      · have := he.start_time
        rw [hlt a, neg_neg, hev a, hea, ham_within hw hmemi _ _ _ (hag a haI), hea]
        exact this
    refine h2.unique (hasPartial_transfer (G := G) (lagrange_within (hw.costs _ (by simp))
      (fun c hc => hw.cons c (List.mem_append_left _ hc)) _) (hw.states d hd).1 (fun s hs => ?_) h3)
    have := hag a haI s hs
    rw [hea] at this
    exact this.symm
  have hf : ∀ d ∈ q.states, eval (real U) (ρ b) ((phif q).diff d.name) = ρ b (lamName d.name) := by
    intro d hd
    have h1 := lagrange_partial (fun i => (hn.nu d hd i).2)
      (hasPartial_end "_nu_f_" hsb.1 hsb.2 d.name)
    have h2 := (hasPartial_congr fun z => lagrange_congr_nu (ν' := ν₁)
      (fun i hi => h.stop i (by simpa using hi) b) _).1 h1
    have h3 : HasPartial (lagrange (fun σ => eval (real U) σ q.costTerminal)
        (q.terminal.map fun c σ => eval (real U) σ c.expr) ν₁) d.name (ρ b (lamName d.name)) (x B) := by
      rcases hsplit d hd with hd' | rfl
      · have := he.stop (d.name, fun σ => eval (real U) σ d.eom) (List.mem_map.2 ⟨d, hd', rfl⟩)
        rw [h.costate d hd' b, heb]
        exact this
      · have := he.stop_time
        rw [hlt b, hev b, heb, ham_within hw hmemi _ _ _ (hag b hbI), heb]
        exact this
    refine h2.unique (hasPartial_transfer (G := G) (lagrange_within (hw.costs _ (by simp))
      (fun c hc => hw.cons c (List.mem_append_right _ hc)) _) (hw.states d hd).1 (fun s hs => ?_) h3)
    have := hag b hbI s hs
    rw [heb] at this
    exact this.symm
  refine ⟨hc, ?_, fun u hum τ hτ => hctl τ hτ u hum, hsta, ?_, ?_⟩
  · intro τ hτ d hd
    rcases List.mem_append.1 hd with hd | hd
    · rcases hsplit d hd with hd | rfl
      · exact hstates τ hτ d hd
      · rw [show (fun τ => ρ τ t) = fun τ => A + c * (τ - a) from funext h.time, eval_one, mul_one]
        exact hθ τ
    · obtain ⟨d', hd', rfl⟩ := List.mem_map.1 hd
      rcases hsplit d' hd' with hd' | rfl
      · exact hlams τ hτ d' hd'
      · exact hlamt τ hτ
  · intro k hk
    rcases List.mem_append.1 hk with hk | hk
    · have := he.initial _ (List.mem_map.2 ⟨k, hk, rfl⟩)
      rw [eval_congr (real U) fun s hs => hag a haI s (hw.cons k (List.mem_append_left _ hk) s hs), hea]
      exact this
    · obtain ⟨n, hn', rfl⟩ := List.mem_map.1 hk
      obtain ⟨d, hd, rfl⟩ := List.mem_map.1 hn'
      rw [eval_add, h0 d hd]
      exact add_neg_cancel _
  · intro k hk
    rw [List.mem_append, List.mem_append, List.mem_singleton] at hk
    rcases hk with (hk | hk) | rfl
    · have := he.terminal _ (List.mem_map.2 ⟨k, hk, rfl⟩)
      rw [eval_congr (real U) fun s hs => hag b hbI s (hw.cons k (List.mem_append_right _ hk) s hs), heb]
      exact this
    · obtain ⟨n, hn', rfl⟩ := List.mem_map.1 hk
      obtain ⟨d, hd, rfl⟩ := List.mem_map.1 hn'
      rw [eval_sub, hf d hd]
      exact sub_self _
    · rw [eval_add, eval_diff_of_not_mem _ _ hn.ind, zero_add, hH0, eval_add, eval_mul, eval_one, mul_one]
      change _ + ρ b (lamName t) = 0
      rw [hlt b, add_neg_cancel]

end Beluga.Opt
