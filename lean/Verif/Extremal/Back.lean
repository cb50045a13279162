import Verif.Extremal.Pipeline
import Mathlib.Analysis.Calculus.Deriv.Slope
import Mathlib.Analysis.Calculus.MeanValue

/-! # From the dual problem to the generated boundary value problem -/

namespace Beluga.Opt

open Beluga.Sym Beluga.Sym.Expr

variable {U : Name → Nat → ℝ → ℝ}

/-- sympy's `solve` misses no solution at `σ`: if the equations hold there, one of the solutions it returns gives all unknowns
the values that they have. -/
def SolveFinds (S : Sympy) (U : Name → Nat → ℝ → ℝ) (eqs : List Expr) (syms : List Name) (σ : Env) : Prop :=
  (∀ e ∈ eqs, eval (real U) σ e = 0) → ∃ sol ∈ S.solve eqs syms, ∀ x ∈ syms, ∃ e, sol.lookup x = some e ∧
    σ x = eval (real U) σ e

/-- The second derivatives of `H` by the controls form a matrix without kernel. -/
def Nondegenerate (U : Name → Nat → ℝ → ℝ) (H : Expr) (controls : List Name) (σ : Env) : Prop :=
  ∀ v : Nat → ℝ, (∀ i (hi : i < controls.length), ∑ j : Fin controls.length,
    eval (real U) σ ((H.diff controls[i]).diff controls[j]) * v j = 0) → ∀ j < controls.length, v j = 0

/-- A function that vanishes on an interval has derivative zero there, at the ends too. -/
theorem deriv_zero_of_zero {f : ℝ → ℝ} {a b t d : ℝ} (hab : a < b) (h0 : ∀ s ∈ Set.Icc a b, f s = 0) (ht : t ∈ Set.Icc a b)
    (hd : HasDerivAt f d t) : d = 0 := by
  have h1 : HasDerivWithinAt f d (Set.Icc a b) t := hd.hasDerivWithinAt
  have h2 : HasDerivWithinAt f 0 (Set.Icc a b) t :=
    (hasDerivWithinAt_const t (Set.Icc a b) (0 : ℝ)).congr h0 (h0 t ht)
  exact (uniqueDiffOn_Icc hab t ht).eq_deriv _ h1 h2

theorem forall₂_left {α β : Type} {R : α → β → Prop} : ∀ {l : List α} {m : List β}, List.Forall₂ R l m →
    ∀ a ∈ l, ∃ b ∈ m, R a b
  | _, _, .nil, b, h => by cases h
  | _, _, .cons r rs, b, h => by
    rcases List.mem_cons.1 h with rfl | h
    · exact ⟨_, List.mem_cons_self, r⟩
    · obtain ⟨a, ha, h1⟩ := forall₂_left rs b h
      exact ⟨a, List.mem_cons_of_mem _ ha, h1⟩

theorem forall₂_and {α β : Type} {R : α → β → Prop} {Q : α → β → Prop} : ∀ {l : List α} {m : List β}, List.Forall₂ R l m →
    (∀ a ∈ l, ∀ b, R a b → Q a b) → List.Forall₂ Q l m
  | _, _, .nil, _ => .nil
  | _, _, .cons r rs, h => .cons (h _ List.mem_cons_self _ r) (forall₂_and rs fun a ha => h a (List.mem_cons_of_mem _ ha))

/-- Following equations at some pace is following the normalised ones. -/
theorem follows_norm {norm : Bool} {L : List Dyn} {ind : Name} {a b c : ℝ} {ρ : ℝ → Env}
    (hd : ∀ t ∈ Set.Icc a b, c = if norm then ρ t ("_delta" ++ ind) else 1)
    (h : Follows U L c a b ρ) :
    Follows U (if norm then L.map fun s => ⟨s.name, s.eom * sym ("_delta" ++ ind)⟩ else L) 1 a b ρ := by
  cases norm
  · intro t ht d hdm
    have := hd t ht
    rw [if_neg (by simp)] at this
    rw [← this]
    exact h t ht d (by simpa using hdm)
  · intro t ht d hdm
    simp only [if_true] at hdm
    obtain ⟨d, hdl, rfl⟩ := List.mem_map.1 hdm
    refine (h t ht d hdl).congr_deriv ?_
    rw [eval_mul, show eval (real U) (ρ t) (sym ("_delta" ++ ind)) = ρ t ("_delta" ++ ind) from rfl]
    have := hd t ht
    rw [if_pos rfl] at this
    rw [← this]
    ring

/-- Stationary controls of a nondegenerate Hamiltonian follow the generated rates. -/
theorem control_rates {S : Sympy} (hL : LuSound S) {H : Expr} {controls : List Name} {dyn : List Dyn} {udot : List Expr}
    (hlu : S.lu (ctlMatrix H controls) (ctlRhs H controls dyn) = .ok udot) {a b c : ℝ} (hab : a < b) {ρ : ℝ → Env}
    (hnd : (dyn.map Dyn.name ++ controls).Nodup) (hf : Follows U dyn c a b ρ)
    (hu : ∀ u ∈ controls, ∀ t ∈ Set.Icc a b, ∃ v, HasDerivAt (fun τ => ρ τ u) v t)
    (hst : ∀ u ∈ controls, ∀ t ∈ Set.Icc a b, eval (real U) (ρ t) (H.diff u) = 0)
    (hfix : ∀ s ∈ H.free, s ∉ dyn.map Dyn.name ++ controls → Moves a b ρ 0 s)
    (hsm : ∀ t ∈ Set.Icc a b, ∀ u ∈ controls, Smooth U (ρ t) (H.diff u))
    (hdf : ∀ t ∈ Set.Icc a b, ∀ e ∈ udot, Defined (real U) (ρ t) e)
    (hreg : ∀ t ∈ Set.Icc a b, Nondegenerate U H controls (ρ t)) :
    Follows U (ctlStates controls udot) c a b ρ := by
  obtain ⟨hlen, hsol⟩ := udot_solves hL hlu
  have hcl : (ctlStates controls udot).length = controls.length := by simp [ctlStates, hlen]
  have hge : ∀ j (hj : j < controls.length), (ctlStates controls udot)[j]'(by omega) = ⟨controls[j], udot[j]'(by omega)⟩ := by
    intro j hj
    simp [ctlStates]
  intro t ht d hd
  obtain ⟨k, hk, rfl⟩ := List.mem_iff_getElem.1 hd
  rw [hcl] at hk
  rw [hge k hk]
  -- the error of the rates is in the kernel
  have hz := hreg t ht (fun j => deriv (fun τ => ρ τ (controls.getD j "")) t - c * eval (real U) (ρ t) (udot.getD j 0)) (by
    intro i hi
    have hmem : controls[i] ∈ controls := List.getElem_mem _
    have hd := hasDerivAt_eval (U := U) (ρ := ρ) (v := fun s => deriv (fun τ => ρ τ s) t) (t := t) hnd
      (e := H.diff controls[i])
      (by
        intro s hs
        by_cases hm : s ∈ dyn.map Dyn.name ++ controls
        · rcases List.mem_append.1 hm with hm | hm
          · obtain ⟨d, hd, rfl⟩ := List.mem_map.1 hm
            exact (hf t ht d hd).differentiableAt.hasDerivAt
          · obtain ⟨v, hv⟩ := hu s hm t ht
            exact hv.differentiableAt.hasDerivAt
        · exact (hfix s (mem_free_diff hs) hm t ht).differentiableAt.hasDerivAt)
      (by
        intro s hs
        by_cases hm : s ∈ dyn.map Dyn.name ++ controls
        · exact Or.inl hm
        · exact Or.inr (hfix s (mem_free_diff hs) hm t ht).deriv)
      (hsm t ht _ hmem)
    have h0 := deriv_zero_of_zero hab (hst _ hmem) ht hd
    have hg : H.diff controls[i] ∈ gOf H controls := List.mem_map_of_mem hmem
    have h1 := hsol (real U) (ρ t) (hdf t ht) _ hg
    rw [List.map_append, List.sum_append, List.map_map] at h0
    have e1 : (dyn.map ((fun s => eval (real U) (ρ t) ((H.diff controls[i]).diff s) * deriv (fun τ => ρ τ s) t) ∘ Dyn.name)).sum =
        c * (dyn.map fun d => eval (real U) (ρ t) ((H.diff controls[i]).diff d.name) * eval (real U) (ρ t) d.eom).sum := by
      rw [← List.sum_map_mul_left]
      congr 1
      refine List.map_congr_left fun d hd => ?_
      simp only [Function.comp_apply]
      rw [(hf t ht d hd).deriv]
      ring
    have e2 : (controls.map fun s => eval (real U) (ρ t) ((H.diff controls[i]).diff s) * deriv (fun τ => ρ τ s) t).sum =
        ∑ j : Fin controls.length, eval (real U) (ρ t) ((H.diff controls[i]).diff controls[j]) *
          deriv (fun τ => ρ τ (controls.getD j "")) t := by
      rw [← List.sum_ofFn]
      congr 1
      refine List.ext_getElem (by simp) fun j h1 h2 => ?_
      simp
    have e3 : ((ctlStates controls udot).map fun d => eval (real U) (ρ t) ((H.diff controls[i]).diff d.name) *
        eval (real U) (ρ t) d.eom).sum = ∑ j : Fin controls.length,
          eval (real U) (ρ t) ((H.diff controls[i]).diff controls[j]) * eval (real U) (ρ t) (udot.getD j 0) := by
      rw [← List.sum_ofFn]
      congr 1
      refine List.ext_getElem (by simp [hcl]) fun j h1 h2 => ?_
      have hj : j < controls.length := by simpa [hcl] using h1
      rw [List.getElem_map, hge j hj, List.getElem_ofFn]
      simp [hlen, hj]
    rw [e1, e2] at h0
    rw [e3] at h1
    have : ∑ j : Fin controls.length, eval (real U) (ρ t) ((H.diff controls[i]).diff controls[j]) *
        (deriv (fun τ => ρ τ (controls.getD j "")) t - c * eval (real U) (ρ t) (udot.getD j 0)) =
        ∑ j : Fin controls.length, eval (real U) (ρ t) ((H.diff controls[i]).diff controls[j]) *
          deriv (fun τ => ρ τ (controls.getD j "")) t - c * ∑ j : Fin controls.length,
          eval (real U) (ρ t) ((H.diff controls[i]).diff controls[j]) * eval (real U) (ρ t) (udot.getD j 0) := by
      rw [Finset.mul_sum, ← Finset.sum_sub_distrib]
      refine Finset.sum_congr rfl fun j _ => ?_
      ring
    rw [this]
    linear_combination h0 - c * h1) k hk
  obtain ⟨v, hv⟩ := hu controls[k] (List.getElem_mem _) t ht
  have e : v = c * eval (real U) (ρ t) (udot[k]'(by omega)) := by
    have hku : k < udot.length := by omega
    simp only [List.getD, List.getElem?_eq_getElem hk, List.getElem?_eq_getElem hku, Option.getD_some, hv.deriv] at hz
    linarith
  rw [← e]
  exact hv

/-- A solution of the dual problem of `q` solves what the functors make of `q`.  With the method 'diffyg' and differential
control the costates of the controls must vanish. -/
theorem pipeline_back {S : Sympy} (hL : LuSound S) {q p' : Prob} (hq : Clean q) {m : Method} (hm : m ≠ .other) {ctl : Step}
    {norm jac : Bool} (hqu : q.quads = [])
    (hctl : ctl = .algebraic ∨ ctl = .differential m)
    {init : List Dyn} {tn : Name} (hlast : q.states = init ++ [⟨tn, 1⟩])
    (h : runSteps S ([.dualize m, ctl] ++ (if norm then [.normalizeTime] else []) ++ [.squash] ++
      (if jac then [.jacobians] else [])) q = .ok p') {a b c : ℝ} (hab : a < b) {ρ : ℝ → Env} (hs : DualSol U q c a b ρ)
    (hfix : ∀ s, s ∉ q.states.map Dyn.name ++ q.states.map (fun s => lamName s.name) ++ q.controls →
      s ≠ (if norm then "_tau" else q.ind) → Moves a b ρ 0 s)
    (hc : ∀ t ∈ Set.Icc a b, c = if norm then ρ t ("_delta" ++ q.ind) else 1)
    (hr : Regular S U q p' a b ρ)
    (hsol : ctl = .algebraic → ∀ t ∈ Set.Icc a b, SolveFinds S U (q.controls.map fun u => (hexpr q).diff u) q.controls (ρ t))
    (hdet : ctl = .differential m → ∀ t ∈ Set.Icc a b, Nondegenerate U (hexpr q) q.controls (ρ t))
    (hzero : ctl = .differential .diffyg → ∀ u ∈ q.controls, Moves a b ρ 0 (lamName u) ∧ ρ a (lamName u) = 0) :
    Solves U p' a b ρ := by
  rw [List.append_assoc, List.append_assoc, List.cons_append, List.cons_append, List.nil_append, runSteps_cons] at h
  obtain ⟨qd, hd, h⟩ := bind_ok h
  rw [runSteps_cons] at h
  obtain ⟨q1, h1, h⟩ := bind_ok h
  have hd : dualize S m q = .ok qd := hd
  rw [← List.append_assoc] at h
  obtain ⟨t1, t2, t3, t4, t5, t6, t7⟩ := tail_ok h
  have t8 := tail_omega h
  have hD := dualize_any hL hq hm hd
  have hsf := follows_append.1 hs.follows
  have hqd : qd.quads = [] := hD.quads.trans hqu
  -- the constant names
  have hfixed : q1.ind = q.ind → q1.quads = [] → q1.coparameters = [] →
      (∀ s ∈ q.states.map Dyn.name ++ q.states.map (fun s => lamName s.name) ++ q.controls,
        s ∈ (q1.states ++ q1.costates).map Dyn.name ++ q1.controls) →
      ∀ s, s ∉ p'.states.map Dyn.name → s ∉ p'.quads.map Dyn.name → s ∉ p'.controls → s ≠ p'.ind → Moves a b ρ 0 s := by
    intro e1 e2 e3 e4 s n1 n2 n3 n4
    have hnm : ∀ x ∈ (q1.states ++ q1.costates).map Dyn.name, x ∈ p'.states.map Dyn.name := by
      intro x hx
      rw [t1]
      split
      · rw [List.map_map]
        exact hx
      · exact hx
    refine hfix s (fun hx => ?_) ?_
    · rcases List.mem_append.1 (e4 s hx) with hx | hx
      · exact n1 (hnm s hx)
      · exact n3 (by rw [t4]; exact hx)
    · rw [t7, e1] at n4
      exact n4
  have hdef : ∀ t ∈ Set.Icc a b, ∀ d ∈ q1.states ++ q1.costates, Defined (real U) (ρ t) d.eom := by
    intro t ht d hd
    cases norm
    · exact hr.defined t ht d (by rw [t1]; simpa using hd)
    · have := hr.defined t ht ⟨d.name, d.eom * sym ("_delta" ++ q1.ind)⟩ (by
        rw [t1, if_pos rfl]
        exact List.mem_map.2 ⟨d, hd, rfl⟩)
      exact this.1
  rcases hctl with rfl | rfl
  · -- algebraic
    have h1 : algebraicControl S qd = .ok q1 := h1
    obtain ⟨dhdu, chain, e, hlaw⟩ := algebraic_ok hD.ham h1
    have g1 : q1.states = qd.states := by rw [e]
    have g2 : q1.costates = qd.costates := by rw [e]
    have g3 : q1.ind = qd.ind := by rw [e]
    have g4 : q1.quads = qd.quads := by rw [e]
    have g5 : q1.coparameters = qd.coparameters := by rw [e]
    have g6 : q1.controls = qd.controls := by rw [e]
    have g7 : q1.initial = qd.initial := by rw [e]
    have g8 : q1.terminal = qd.terminal := by rw [e]
    refine ⟨?_, hfixed (g3.trans hD.ind) (g4.trans hqd) (g5.trans hD.coparameters) ?_, ?_, ?_, ?_⟩
    · rw [t1]
      refine follows_norm (c := c) (by rw [g3, hD.ind]; exact hc) ?_
      rw [g1, g2, hD.states]
      exact follows_append.2 ⟨hsf.1, hD.follows_back (fun t ht d hd => hdef t ht d (by
        rw [g2]; exact List.mem_append_right _ hd)) hsf.2⟩
    · intro s hsm
      rw [List.map_append, g1, g2, hD.names, hD.states, g6, hD.controls]
      exact hsm
    · intro _ t ht
      rw [hD.controls] at hlaw
      obtain ⟨sol, hm, hv⟩ := hsol rfl t ht (by
        intro e he
        obtain ⟨u, hu, rfl⟩ := List.mem_map.1 he
        exact hs.stationary u hu t ht)
      obtain ⟨opt, hopt, hpk⟩ := forall₂_left hlaw sol hm
      refine ⟨opt, by rw [t5]; exact hopt, ?_⟩
      rw [t4, g6, hD.controls]
      refine forall₂_and (pickOption_ok hpk) fun u hu e he => ?_
      obtain ⟨e', h2, h3⟩ := hv u hu
      rw [he] at h2
      cases h2
      exact h3
    · rw [t2, g7, hD.initial]
      exact hs.initial
    · rw [t3, g8, hD.terminal]
      exact hs.terminal
  · -- differential
    have h1 : differentialControl S m qd = .ok q1 := h1
    have hX := differential_any hL hD h1
    -- the rates of the controls
    have hrate : ∀ udot, S.lu (ctlMatrix (hexpr q) q.controls) (ctlRhs (hexpr q) q.controls (q.states ++ qd.costates)) = .ok udot →
        (∀ t ∈ Set.Icc a b, ∀ d ∈ qd.costates, Defined (real U) (ρ t) d.eom) →
        (∀ t ∈ Set.Icc a b, ∀ e ∈ udot, Defined (real U) (ρ t) e) → Follows U (ctlStates q.controls udot) c a b ρ := by
      intro udot hlu hdc hdu
      refine control_rates hL hlu hab ?_ (follows_append.2 ⟨hsf.1, hD.follows_back hdc hsf.2⟩) hs.controls hs.stationary ?_ hr.ham
        hdu (hdet rfl)
      · rw [List.map_append, hD.names]
        exact hq.nodup
      · intro s hsf hsn
        rw [List.map_append, hD.names] at hsn
        refine hfix s hsn ?_
        split
        · exact (hq.free s hsf).2.2
        · exact (hq.free s hsf).2.1
    have hstat : ∀ k ∈ (gOf (hexpr q) q.controls).map fun gk => ({ expr := gk } : Con), eval (real U) (ρ b) k.expr = 0 := by
      intro k hk
      obtain ⟨g, hg, rfl⟩ := List.mem_map.1 hk
      obtain ⟨u, hu, rfl⟩ := List.mem_map.1 hg
      exact hs.stationary u hu b ⟨hab.le, le_refl _⟩
    have hnames : ∀ s ∈ q.states.map Dyn.name ++ q.states.map (fun s => lamName s.name) ++ q.controls,
        s ∈ (q1.states ++ q1.costates).map Dyn.name ++ q1.controls := by
      intro s hsm
      rw [List.map_append, hX.names, hX.lams, hX.controls]
      simp only [List.mem_append] at hsm ⊢
      tauto
    have hlaw : p'.controls ≠ [] → ∀ t ∈ Set.Icc a b, ∃ opt ∈ p'.controlLaw,
        List.Forall₂ (fun u e => ρ t u = eval (real U) (ρ t) e) p'.controls opt := by
      intro hne
      rw [t4, hX.controls] at hne
      exact absurd rfl hne
    cases m with
    | other => exact absurd rfl hm
    | traditional =>
      obtain ⟨-, -, H, udot, hH, hlu, e⟩ := differential_traditional h1
      rw [hD.ham] at hH
      cases hH
      obtain ⟨hlen, -⟩ := udot_solves hL hlu
      have g1 : q1.states = qd.states ++ ctlStates qd.controls udot := by rw [e]
      have g2 : q1.costates = qd.costates := by rw [e]
      have g7 : q1.initial = qd.initial := by rw [e]
      have g8 : q1.terminal = qd.terminal ++ (gOf (hexpr q) qd.controls).map fun gk => ({ expr := gk } : Con) := by rw [e]
      rw [hD.controls] at hlu hlen g1 g8
      rw [Prob.dyn, hD.states] at hlu
      have hdc : ∀ t ∈ Set.Icc a b, ∀ d ∈ qd.costates, Defined (real U) (ρ t) d.eom := fun t ht d hd =>
        hdef t ht d (by rw [g2]; exact List.mem_append_right _ hd)
      have hct := hrate udot hlu hdc (by
        intro t ht e he
        have hmem : ∃ n, (⟨n, e⟩ : Dyn) ∈ ctlStates q.controls udot := by
          obtain ⟨k, hk, rfl⟩ := List.mem_iff_getElem.1 he
          have hcl : (ctlStates q.controls udot).length = q.controls.length := by simp [ctlStates, hlen]
          refine ⟨q.controls[k]'(by omega), ?_⟩
          have : (ctlStates q.controls udot)[k]'(by omega) = ⟨q.controls[k]'(by omega), udot[k]⟩ := by simp [ctlStates]
          rw [← this]
          exact List.getElem_mem _
        obtain ⟨n, hmem⟩ := hmem
        exact hdef t ht ⟨n, e⟩ (by rw [g1]; simp [hmem]))
      refine ⟨?_, hfixed hX.ind (hX.quads.trans hqu) hX.coparameters hnames, hlaw, ?_, ?_⟩
      · rw [t1]
        refine follows_norm (c := c) (by rw [hX.ind]; exact hc) ?_
        rw [g1, g2, follows_append, follows_append, hD.states]
        exact ⟨⟨hsf.1, hct⟩, hD.follows_back hdc hsf.2⟩
      · rw [t2, g7, hD.initial]
        exact hs.initial
      · rw [t3, g8, hD.terminal]
        intro k hk
        rcases List.mem_append.1 hk with hk | hk
        · exact hs.terminal k hk
        · exact hstat k hk
    | diffyg =>
      obtain ⟨_, _, _, _, _, _, _, _, _, e⟩ := differential_diffyg h1
      obtain ⟨om, hom⟩ : ∃ om, q1.omega = some om := ⟨_, by rw [e]⟩
      clear e
      have hform := hr.form om (by rw [t8, hom])
      obtain ⟨chi, udp, -, hupl, -, -, hini, hter, ⟨om', hom', hmem⟩, hludp, -⟩ := diffyg_values hL hq.sympified hq.costates
        hq.coparameters hq.parameters hd h1 ⟨init, tn, hlast⟩ hq.lam fun u hu => (hq.lam_controls u hu).1
      rw [hom] at hom'
      cases hom'
      refine ⟨?_, hfixed hX.ind (hX.quads.trans hqu) hX.coparameters hnames, hlaw, ?_, ?_⟩
      · rw [t1]
        refine follows_norm (c := c) (by rw [hX.ind]; exact hc) ?_
        refine diffyg_back hL hq.sympified hq.costates hq.coparameters hq.parameters hlast hq.lam hd h1
          (fun u hu => (hq.lam_controls u hu).1) hdef hsf.1 hsf.2 ?_ hs.stationary fun u hu => (hzero rfl u hu).1
        intro udot hlu
        refine hrate udot hlu (fun t ht => (hform t ht).2 qd hd) ?_
        rw [hlu] at hludp
        cases hludp
        intro t ht e he
        obtain ⟨j, hj, rfl⟩ := List.mem_iff_getElem.1 he
        obtain ⟨row, hrow, hin⟩ := hmem j (by omega)
        have e1 : udp.getD j 0 = udp[j] := by simp [List.getD, List.getElem?_eq_getElem hj]
        rw [e1] at hin
        exact (hform t ht).1 row hrow _ hin
      · rw [t2, hini, hD.initial]
        intro k hk
        rcases List.mem_append.1 hk with hk | hk
        · exact hs.initial k hk
        · obtain ⟨u, hu, rfl⟩ := List.mem_map.1 hk
          exact (hzero rfl u hu).2
      · rw [t3, hter, hD.terminal]
        intro k hk
        rcases List.mem_append.1 hk with hk | hk
        · exact hs.terminal k hk
        · refine hstat k ?_
          rw [gOf, List.map_map]
          exact hk

end Beluga.Opt
