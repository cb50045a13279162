import Verif.Extremal.Spec

/-! # From the dual problem to extremals -/

namespace Beluga.Opt

open Beluga.Sym Beluga.Sym.Expr

variable {U : Name → Nat → ℝ → ℝ}

/-- The Hamiltonian expression. -/
abbrev hexpr (q : Prob) : Expr := hamiltonianOf q.costPath q.states

/-- The boundary costs with multipliers, as expressions. -/
abbrev phi0 (q : Prob) : Expr := augment q.costInitial (nuNames "_nu_0_" q.initial.length) q.initial
abbrev phif (q : Prob) : Expr := augment q.costTerminal (nuNames "_nu_f_" q.terminal.length) q.terminal

/-- The optimal control problem whose functions are the expressions of `q`, with the time `t` and the other states
`init` taken apart. -/
noncomputable def ocpOf (U : Name → Nat → ℝ → ℝ) (t : Name) (init : List Dyn) (fixed : List Name) (q : Prob) : Ocp where
  ind := t
  rates := init.map fun d => (d.name, fun σ => eval (real U) σ d.eom)
  controls := q.controls
  fixed := fixed
  path := fun σ => eval (real U) σ q.costPath
  costInitial := fun σ => eval (real U) σ q.costInitial
  costTerminal := fun σ => eval (real U) σ q.costTerminal
  initial := q.initial.map fun c σ => eval (real U) σ c.expr
  terminal := q.terminal.map fun c σ => eval (real U) σ c.expr

/-- A solution of the dual problem in a parameter that runs `c` times slower than time. -/
structure DualSol (U : Name → Nat → ℝ → ℝ) (q : Prob) (c a b : ℝ) (ρ : ℝ → Name → ℝ) : Prop where
  pos : 0 < c
  follows : Follows U (q.states ++ q.states.map fun s => ⟨lamName s.name, -((hexpr q).diff s.name)⟩) c a b ρ
  controls : ∀ u ∈ q.controls, ∀ t ∈ Set.Icc a b, ∃ v, HasDerivAt (fun τ => ρ τ u) v t
  stationary : ∀ u ∈ q.controls, ∀ t ∈ Set.Icc a b, eval (real U) (ρ t) ((hexpr q).diff u) = 0
  initial : Holds U (ρ a) (q.initial ++ (q.states.map Dyn.name).map fun n => { expr := sym (lamName n) + (phi0 q).diff n })
  terminal : Holds U (ρ b) (q.terminal ++ ((q.states.map Dyn.name).map fun n =>
    ({ expr := sym (lamName n) - (phif q).diff n } : Con)) ++ [{ expr := (phif q).diff q.ind + hexpr q }])

/-- The same with tolerances: the boundary conditions hold up to `ε`, and the partial derivatives of the Hamiltonian by the
controls are constants of size at most `η`.  The costate of the last state (the time) may follow its equation up to a share
`θ` of the change of the Hamiltonian that comes from the controls. -/
structure DualNear (U : Name → Nat → ℝ → ℝ) (q : Prob) (ε η c a b : ℝ) (ρ : ℝ → Name → ℝ) : Prop where
  pos : 0 < c
  motion : Follows U q.states c a b ρ
  adjoint : Follows U (q.states.dropLast.map fun s => ⟨lamName s.name, -((hexpr q).diff s.name)⟩) c a b ρ
  last : ∃ θ : ℝ, 0 ≤ θ ∧ θ ≤ 1 ∧ ∀ s ∈ q.states.getLast?, ∀ t ∈ Set.Icc a b, HasDerivAt (fun τ => ρ τ (lamName s.name))
    (-(c * eval (real U) (ρ t) ((hexpr q).diff s.name)) -
      θ * (q.controls.map fun u => eval (real U) (ρ b) ((hexpr q).diff u) * deriv (fun τ => ρ τ u) t).sum) t
  controls : ∀ u ∈ q.controls, ∀ t ∈ Set.Icc a b, ∃ v, HasDerivAt (fun τ => ρ τ u) v t
  stationary : ∀ u ∈ q.controls, |eval (real U) (ρ b) ((hexpr q).diff u)| ≤ η ∧
    ∀ t ∈ Set.Icc a b, eval (real U) (ρ t) ((hexpr q).diff u) = eval (real U) (ρ b) ((hexpr q).diff u)
  initial : Nearly U ε (ρ a) (q.initial ++ (q.states.map Dyn.name).map fun n => { expr := sym (lamName n) + (phi0 q).diff n })
  terminal : Nearly U ε (ρ b) (q.terminal ++ ((q.states.map Dyn.name).map fun n =>
    ({ expr := sym (lamName n) - (phif q).diff n } : Con)) ++ [{ expr := (phif q).diff q.ind + hexpr q }])

/-- The costates follow their equations exactly. -/
theorem last_of_follows {q : Prob} {c a b : ℝ} {ρ : ℝ → Name → ℝ}
    (h : Follows U (q.states.map fun s => ⟨lamName s.name, -((hexpr q).diff s.name)⟩) c a b ρ) :
    Follows U (q.states.dropLast.map fun s => ⟨lamName s.name, -((hexpr q).diff s.name)⟩) c a b ρ ∧
      ∃ θ : ℝ, 0 ≤ θ ∧ θ ≤ 1 ∧ ∀ s ∈ q.states.getLast?, ∀ t ∈ Set.Icc a b, HasDerivAt (fun τ => ρ τ (lamName s.name))
        (-(c * eval (real U) (ρ t) ((hexpr q).diff s.name)) -
          θ * (q.controls.map fun u => eval (real U) (ρ b) ((hexpr q).diff u) * deriv (fun τ => ρ τ u) t).sum) t := by
  refine ⟨fun t ht d hd => ?_, 0, le_refl _, zero_le_one, fun s hs t ht => ?_⟩
  · obtain ⟨s, hs, rfl⟩ := List.mem_map.1 hd
    exact h t ht _ (List.mem_map.2 ⟨s, List.dropLast_subset _ hs, rfl⟩)
  · have := h t ht _ (List.mem_map.2 ⟨s, List.mem_of_getLast? hs, rfl⟩)
    simpa only [eval_neg, mul_neg, zero_mul, sub_zero] using this

theorem DualNear.exact {q : Prob} {c a b : ℝ} {ρ : ℝ → Name → ℝ} (h : DualNear U q 0 0 c a b ρ) : DualSol U q c a b ρ := by
  have h0 : ∀ u ∈ q.controls, eval (real U) (ρ b) ((hexpr q).diff u) = 0 := fun u hu => abs_nonpos_iff.1 (h.stationary u hu).1
  refine ⟨h.pos, ?_, h.controls, fun u hu t ht => by rw [(h.stationary u hu).2 t ht, h0 u hu], nearly_zero.1 h.initial,
    nearly_zero.1 h.terminal⟩
  intro t ht d hd
  rcases List.mem_append.1 hd with hd | hd
  · exact h.motion t ht d hd
  · obtain ⟨s, hs, rfl⟩ := List.mem_map.1 hd
    rcases List.eq_nil_or_concat q.states with e | ⟨init, l, e⟩
    · rw [e] at hs; cases hs
    · rw [List.concat_eq_append] at e
      rw [e, List.mem_append, List.mem_singleton] at hs
      rcases hs with hs | rfl
      · exact h.adjoint t ht _ (List.mem_map.2 ⟨s, by rw [e]; simpa using hs, rfl⟩)
      · obtain ⟨θ, -, -, hl⟩ := h.last
        have := hl s (by rw [e]; simp) t ht
        rw [List.sum_eq_zero (by
          intro y hy
          obtain ⟨u, hu, rfl⟩ := List.mem_map.1 hy
          rw [h0 u hu, zero_mul]), mul_zero, sub_zero] at this
        simpa only [eval_neg, mul_neg] using this

theorem DualSol.near {q : Prob} {c a b : ℝ} {ρ : ℝ → Name → ℝ} (h : DualSol U q c a b ρ) (hab : a ≤ b) :
    DualNear U q 0 0 c a b ρ := by
  obtain ⟨h1, h2⟩ := last_of_follows (U := U) (q := q) (c := c) (a := a) (b := b) (ρ := ρ)
    fun t ht d hd => h.follows t ht d (List.mem_append_right _ hd)
  refine ⟨h.pos, fun t ht d hd => h.follows t ht d (List.mem_append_left _ hd), h1, h2, h.controls, fun u hu => ?_,
    nearly_zero.2 h.initial, nearly_zero.2 h.terminal⟩
  rw [h.stationary u hu b ⟨hab, le_refl _⟩]
  exact ⟨by simp, h.stationary u hu⟩

/-- Names: variables are distinct, their costates and the multipliers have other names, and the independent variable of
`q` does not occur. -/
structure Named (q : Prob) : Prop where
  nodup : (q.states.map Dyn.name ++ q.states.map (fun s => lamName s.name) ++ q.controls).Nodup
  lam : LamFresh q
  nu : ∀ s ∈ q.states, ∀ i : Nat, s.name ≠ "_nu_0_" ++ toString i ∧ s.name ≠ "_nu_f_" ++ toString i
  ind : q.ind ∉ (phif q).free

theorem hasPartial_congr {f g : Env → ℝ} {x : Name} {d : ℝ} {σ : Env}
    (h : ∀ z, f (Function.update σ x z) = g (Function.update σ x z)) : HasPartial f x d σ ↔ HasPartial g x d σ := by
  rw [HasPartial, HasPartial, show (fun z => f (Function.update σ x z)) = fun z => g (Function.update σ x z) from funext h]

theorem sum_zero' {L : List ℝ} (h : ∀ y ∈ L, y = 0) : L.sum = 0 := List.sum_eq_zero h

theorem hasDerivAt_list_sum {α : Type} {l : List α} {f : α → ℝ → ℝ} {v : α → ℝ} {t : ℝ} :
    (∀ u ∈ l, HasDerivAt (f u) (v u) t) → HasDerivAt (fun τ => (l.map fun u => f u τ).sum) (l.map v).sum t := by
  induction l with
  | nil => intro _; simpa using hasDerivAt_const t (0 : ℝ)
  | cons u l ih =>
    intro h
    simp only [List.map_cons, List.sum_cons]
    exact (h u (by simp)).add (ih fun w hw => h w (by simp [hw]))

/-- The rate of the Hamiltonian along a solution. -/
theorem ham_rate {q : Prob} {ε η c a b : ℝ} {ρ : ℝ → Name → ℝ} (h : DualNear U q ε η c a b ρ) (hn : Named q)
    {tn : Name} {init : List Dyn} (hst : q.states = init ++ [⟨tn, 1⟩])
    (hfix : ∀ s ∈ (hexpr q).free, s ∉ q.states.map Dyn.name ++ q.states.map (fun s => lamName s.name) ++ q.controls →
      Moves a b ρ 0 s) (hsm : ∀ t ∈ Set.Icc a b, SmoothRates q U (ρ t)) :
    ∃ κ : ℝ, 0 ≤ κ ∧ κ ≤ 1 ∧ ∀ t ∈ Set.Icc a b, HasDerivAt (fun τ => eval (real U) (ρ τ) (hexpr q))
      (κ * (q.controls.map fun u => eval (real U) (ρ b) ((hexpr q).diff u) * deriv (fun τ => ρ τ u) t).sum) t := by
  obtain ⟨θ, hθ0, hθ1, hlast⟩ := h.last
  refine ⟨1 - θ, by linarith, by linarith, ?_⟩
  intro t ht
  have hmo : ∀ s ∈ q.states, HasDerivAt (fun τ => ρ τ s.name) (c * eval (real U) (ρ t) s.eom) t := fun s hs =>
    h.motion t ht s hs
  have hla : ∀ s ∈ init, HasDerivAt (fun τ => ρ τ (lamName s.name)) (-(c * eval (real U) (ρ t) ((hexpr q).diff s.name))) t := by
    intro s hs
    have := h.adjoint t ht ⟨lamName s.name, -((hexpr q).diff s.name)⟩ (List.mem_map.2 ⟨s, by rw [hst]; simpa using hs, rfl⟩)
    simpa only [eval_neg, mul_neg] using this
  have hlt := hlast ⟨tn, 1⟩ (by rw [hst]; simp) t ht
  have hld : ∀ s ∈ q.states, DifferentiableAt ℝ (fun τ => ρ τ (lamName s.name)) t := by
    intro s hs
    rw [hst, List.mem_append, List.mem_singleton] at hs
    rcases hs with hs | rfl
    · exact (hla s hs).differentiableAt
    · exact hlt.differentiableAt
  have hd := hasDerivAt_eval (U := U) (ρ := ρ) (v := fun s => deriv (fun τ => ρ τ s) t) (t := t) hn.nodup (e := hexpr q)
    (by
      intro s hs
      by_cases hm : s ∈ q.states.map Dyn.name ++ q.states.map (fun s => lamName s.name) ++ q.controls
      · simp only [List.mem_append, List.mem_map] at hm
        rcases hm with (⟨d, hd, rfl⟩ | ⟨d, hd, rfl⟩) | hm
        · exact (hmo d hd).differentiableAt.hasDerivAt
        · exact (hld d hd).hasDerivAt
        · obtain ⟨v, hv⟩ := h.controls s hm t ht
          exact hv.differentiableAt.hasDerivAt
      · exact (hfix s hs hm t ht).differentiableAt.hasDerivAt)
    (by
      intro s hs
      by_cases hm : s ∈ q.states.map Dyn.name ++ q.states.map (fun s => lamName s.name) ++ q.controls
      · exact Or.inl hm
      · exact Or.inr (hfix s hs hm t ht).deriv)
    (smooth_hamiltonianOf (hsm t ht))
  refine hd.congr_deriv ?_
  simp only [List.map_append, List.sum_append, List.map_map, Function.comp_def]
  set G := (q.controls.map fun u => eval (real U) (ρ b) ((hexpr q).diff u) * deriv (fun τ => ρ τ u) t).sum with hG
  have htm : (⟨tn, 1⟩ : Dyn) ∈ q.states := by simp [hst]
  have e1 : (q.states.map fun s => eval (real U) (ρ t) ((hexpr q).diff s.name) * deriv (fun τ => ρ τ s.name) t).sum +
      (q.states.map fun s => eval (real U) (ρ t) ((hexpr q).diff (lamName s.name)) *
        deriv (fun τ => ρ τ (lamName s.name)) t).sum = -(θ * G) := by
    rw [← List.sum_map_add]
    have key : ∀ L : List Dyn, L = init ++ [⟨tn, 1⟩] → (L.map fun s =>
        eval (real U) (ρ t) ((hexpr q).diff s.name) * deriv (fun τ => ρ τ s.name) t +
        eval (real U) (ρ t) ((hexpr q).diff (lamName s.name)) * deriv (fun τ => ρ τ (lamName s.name)) t).sum = -(θ * G) := by
      rintro L rfl
      rw [List.map_append, List.sum_append, List.map_singleton, List.sum_singleton]
      rw [sum_zero' fun y hy => ?_, zero_add]
      · rw [(hmo _ htm).deriv, hlt.deriv, show lamName tn = "_lam_" ++ tn from rfl,
          diff_lam hn.lam htm, eval_one]
        ring
      · obtain ⟨s, hs, rfl⟩ := List.mem_map.1 hy
        have hsq : s ∈ q.states := by simp [hst, hs]
        rw [(hmo s hsq).deriv, (hla s hs).deriv, show lamName s.name = "_lam_" ++ s.name from rfl, diff_lam hn.lam hsq]
        ring
    exact key _ hst
  rw [e1]
  have e2 : (q.controls.map fun u => eval (real U) (ρ t) ((hexpr q).diff u) * deriv (fun τ => ρ τ u) t).sum = G := by
    rw [hG]
    congr 1
    refine List.map_congr_left fun u hu => ?_
    rw [(h.stationary u hu).2 t ht]
  rw [e2]
  ring

/-- The Hamiltonian changes with the controls only. -/
theorem ham_drift {q : Prob} {ε η c a b : ℝ} {ρ : ℝ → Name → ℝ} (h : DualNear U q ε η c a b ρ) (hn : Named q)
    {tn : Name} {init : List Dyn} (hst : q.states = init ++ [⟨tn, 1⟩])
    (hfix : ∀ s ∈ (hexpr q).free, s ∉ q.states.map Dyn.name ++ q.states.map (fun s => lamName s.name) ++ q.controls →
      Moves a b ρ 0 s) (hsm : ∀ t ∈ Set.Icc a b, SmoothRates q U (ρ t)) :
    ∃ κ : ℝ, 0 ≤ κ ∧ κ ≤ 1 ∧ ∀ t ∈ Set.Icc a b, eval (real U) (ρ t) (hexpr q) = eval (real U) (ρ b) (hexpr q) -
      κ * (q.controls.map fun u => eval (real U) (ρ b) ((hexpr q).diff u) * (ρ b u - ρ t u)).sum := by
  obtain ⟨κ, h0, h1, hrate⟩ := ham_rate h hn hst hfix hsm
  refine ⟨κ, h0, h1, ?_⟩
  have key : ∀ t ∈ Set.Icc a b, HasDerivAt (fun τ => eval (real U) (ρ τ) (hexpr q) -
      κ * (q.controls.map fun u => eval (real U) (ρ b) ((hexpr q).diff u) * ρ τ u).sum) 0 t := by
    intro t ht
    refine ((hrate t ht).sub ((hasDerivAt_list_sum (v := fun u =>
      eval (real U) (ρ b) ((hexpr q).diff u) * deriv (fun τ => ρ τ u) t) fun u hu => ?_).const_mul κ)).congr_deriv (sub_self _)
    obtain ⟨v, hv⟩ := h.controls u hu t ht
    exact (hv.differentiableAt.hasDerivAt).const_mul _
  intro t ht
  have e := eq_end_of_deriv_zero key t ht
  have e2 : (q.controls.map fun u => eval (real U) (ρ b) ((hexpr q).diff u) * ρ b u).sum =
      (q.controls.map fun u => eval (real U) (ρ b) ((hexpr q).diff u) * (ρ b u - ρ t u)).sum +
        (q.controls.map fun u => eval (real U) (ρ b) ((hexpr q).diff u) * ρ t u).sum := by
    rw [← List.sum_map_add]
    congr 1
    refine List.map_congr_left fun u _ => ?_
    ring
  rw [e2] at e
  linarith

theorem abs_sum_le {l : List Name} {f g : Name → ℝ} {η : ℝ} (h : ∀ u ∈ l, |f u| ≤ η) :
    |(l.map fun u => f u * g u).sum| ≤ η * (l.map fun u => |g u|).sum := by
  induction l with
  | nil => simp
  | cons u l ih =>
    simp only [List.map_cons, List.sum_cons, mul_add]
    refine (abs_add_le _ _).trans (add_le_add ?_ (ih fun w hw => h w (by simp [hw])))
    rw [abs_mul]
    exact mul_le_mul_of_nonneg_right (h u (by simp)) (abs_nonneg _)

/-- The Hamiltonian is nearly zero along a solution. -/
theorem ham_small {q : Prob} {ε η c a b : ℝ} {ρ : ℝ → Name → ℝ} (h : DualNear U q ε η c a b ρ) (hn : Named q)
    {tn : Name} {init : List Dyn} (hst : q.states = init ++ [⟨tn, 1⟩])
    (hfix : ∀ s ∈ (hexpr q).free, s ∉ q.states.map Dyn.name ++ q.states.map (fun s => lamName s.name) ++ q.controls →
      Moves a b ρ 0 s) (hsm : ∀ t ∈ Set.Icc a b, SmoothRates q U (ρ t)) :
    ∀ t ∈ Set.Icc a b, |eval (real U) (ρ t) (hexpr q)| ≤ ε + η * (q.controls.map fun u => |ρ b u - ρ t u|).sum := by
  intro t ht
  obtain ⟨κ, h0, h1, hd⟩ := ham_drift h hn hst hfix hsm
  rw [hd t ht]
  have h2 := abs_sum_le (g := fun u => ρ b u - ρ t u) fun u hu => (h.stationary u hu).1
  refine (abs_sub _ _).trans (add_le_add ?_ ?_)
  swap
  · rw [abs_mul, abs_of_nonneg h0]
    exact (mul_le_of_le_one_left (abs_nonneg _) h1).trans h2
  have := h.terminal { expr := (phif q).diff q.ind + hexpr q } (by simp)
  simpa only [eval_add, eval_diff_of_not_mem _ _ hn.ind, zero_add] using this

theorem time_line {q : Prob} {ε η c a b : ℝ} {ρ : ℝ → Name → ℝ} (h : DualNear U q ε η c a b ρ) {t : Name}
    (hm : (⟨t, 1⟩ : Dyn) ∈ q.states) : ∀ τ ∈ Set.Icc a b, ρ τ t = ρ a t + c * (τ - a) := by
  have h0 : ∀ τ ∈ Set.Icc a b, HasDerivAt (fun τ => ρ τ t - c * (τ - a)) 0 τ := by
    intro τ hτ
    have h1 := h.motion τ hτ _ hm
    have h2 : HasDerivAt (fun τ => c * (τ - a)) (c * 1) τ := ((hasDerivAt_id' τ).sub_const a).const_mul c
    have := h1.sub h2
    have e1 : eval (real U) (ρ τ) (1 : Expr) = 1 := by simp
    rw [e1, sub_self] at this
    exact this
  have hc := eq_end_of_deriv_zero h0
  intro τ hτ
  have e1 := hc τ hτ
  have e2 := hc a ⟨le_refl _, hτ.1.trans hτ.2⟩
  rw [← e2] at e1
  simp only [sub_self, mul_zero, sub_zero] at e1
  linarith

/-- Costates and multipliers may be read off the curve or given separately. -/
theorem ham_eq {q : Prob} {t : Name} {init : List Dyn} (hst : q.states = init ++ [⟨t, 1⟩]) (fixed : List Name) (σ : Env) :
    (ocpOf U t init fixed q).ham (fun n => σ (lamName n)) σ + σ (lamName t) = Hval q U σ := by
  rw [Ocp.ham, Hval, hst]
  simp only [ocpOf, List.map_append, List.map_map, Function.comp_def, List.map_cons, List.map_nil, List.sum_append,
    List.sum_cons, List.sum_nil, add_zero, eval_one, mul_one, add_assoc]
  rfl

theorem ham_partial {q : Prob} {t : Name} {init : List Dyn} (hst : q.states = init ++ [⟨t, 1⟩]) {fixed : List Name}
    {σ : Env} {x : Name} {d : ℝ} (hx : ∀ s ∈ q.states, x ≠ lamName s.name) (h : HasPartial (Hval q U) x d σ) :
    HasPartial ((ocpOf U t init fixed q).ham fun n => σ (lamName n)) x d σ := by
  have e : ∀ z, (ocpOf U t init fixed q).ham (fun n => σ (lamName n)) (Function.update σ x z) =
      Hval q U (Function.update σ x z) - σ (lamName t) := by
    intro z
    rw [← ham_eq hst fixed]
    have hl : ∀ n, (∃ s ∈ q.states, s.name = n) → Function.update σ x z (lamName n) = σ (lamName n) := by
      rintro n ⟨s, hs, rfl⟩
      exact Function.update_of_ne (hx s hs).symm _ _
    rw [hl t ⟨⟨t, 1⟩, by simp [hst], rfl⟩, add_sub_cancel_right, Ocp.ham, Ocp.ham]
    congr 2
    refine List.map_congr_left fun r hr => ?_
    obtain ⟨d, hd, rfl⟩ := List.mem_map.1 hr
    rw [hl d.name ⟨d, by simp [hst, hd], rfl⟩]
  rw [HasPartial, show (fun z => (ocpOf U t init fixed q).ham (fun n => σ (lamName n)) (Function.update σ x z)) =
    fun z => Hval q U (Function.update σ x z) - σ (lamName t) from funext e]
  exact HasDerivAt.sub_const _ h

theorem lagrange_partial {pre : String} {cost : Expr} {cons : List Con} {σ : Env} {x : Name} {d : ℝ}
    (hx : ∀ i : Nat, x ≠ pre ++ toString i) (h : HasPartial (endCost pre cost cons U) x d σ) :
    HasPartial (lagrange (fun σ => eval (real U) σ cost) (cons.map fun c σ => eval (real U) σ c.expr)
      fun i => σ (pre ++ toString i)) x d σ := by
  refine (hasPartial_congr fun z => ?_).2 h
  rw [lagrange, endCost, List.zipIdx_map, List.map_map]
  congr 2
  refine List.map_congr_left fun r _ => ?_
  simp only [Function.comp_apply, Prod.map_fst, Prod.map_snd, id]
  rw [Function.update_of_ne (hx _).symm]

/-- The costate of time is nearly the negative of the Hamiltonian. -/
theorem DualNear.energy {q : Prob} {ε η c a b : ℝ} {ρ : ℝ → Name → ℝ} (h : DualNear U q ε η c a b ρ) (hn : Named q)
    {t : Name} {init : List Dyn} (hst : q.states = init ++ [⟨t, 1⟩])
    (hfix : ∀ s ∈ (hexpr q).free, s ∉ q.states.map Dyn.name ++ q.states.map (fun s => lamName s.name) ++ q.controls →
      Moves a b ρ 0 s) (hsm : ∀ t ∈ Set.Icc a b, SmoothRates q U (ρ t)) (fixed : List Name) :
    ∀ τ ∈ Set.Icc a b, |(ocpOf U t init fixed q).ham (fun n => ρ τ (lamName n)) (ρ τ) + ρ τ (lamName t)| ≤
      ε + η * (q.controls.map fun u => |ρ b u - ρ τ u|).sum := by
  intro τ hτ
  rw [ham_eq (U := U) hst fixed (ρ τ), ← eval_hamiltonianOf]
  exact ham_small h hn hst hfix hsm τ hτ

/-- A solution of the dual problem, run through in time, is an extremal up to the tolerances. -/
theorem DualNear.extremal {q : Prob} {ε η c a b : ℝ} {ρ : ℝ → Name → ℝ} (h : DualNear U q ε η c a b ρ) (hab : a ≤ b) (hn : Named q)
    {t : Name} {init : List Dyn} (hst : q.states = init ++ [⟨t, 1⟩])
    (hfix : ∀ s ∈ (hexpr q).free, s ∉ q.states.map Dyn.name ++ q.states.map (fun s => lamName s.name) ++ q.controls →
      Moves a b ρ 0 s)
    {fixed : List Name} (hfx : ∀ s ∈ fixed, Moves a b ρ 0 s)
    (hnu : ∀ i : Nat, ρ a ("_nu_f_" ++ toString i) = ρ b ("_nu_f_" ++ toString i))
    (hsm : ∀ t ∈ Set.Icc a b, SmoothRates q U (ρ t)) (hsa : SmoothStart q U (ρ a)) (hsb : SmoothStop q U (ρ b)) :
    NearExtremal (ocpOf U t init fixed q) ε η (ρ a t) (ρ a t + c * (b - a)) (fun s => ρ (a + (s - ρ a t) / c))
      (fun s n => ρ (a + (s - ρ a t) / c) ("_lam_" ++ n)) (fun i => ρ a ("_nu_0_" ++ toString i))
      (fun i => ρ a ("_nu_f_" ++ toString i)) := by
  have hc := h.pos
  have htm : (⟨t, 1⟩ : Dyn) ∈ q.states := by simp [hst]
  have hline := time_line h htm
  have hin : ∀ s ∈ Set.Icc (ρ a t) (ρ a t + c * (b - a)), a + (s - ρ a t) / c ∈ Set.Icc a b := by
    intro s hs
    constructor
    · have := div_nonneg (sub_nonneg.2 hs.1) hc.le
      linarith
    · have : (s - ρ a t) / c ≤ b - a := by
        rw [div_le_iff₀ hc]
        linarith [hs.2]
      linarith
  have hea : a + (ρ a t - ρ a t) / c = a := by simp
  have heb : a + (ρ a t + c * (b - a) - ρ a t) / c = b := by field_simp; ring
  have hre : ∀ (n : Name) (v s : ℝ), HasDerivAt (fun τ => ρ τ n) (c * v) (a + (s - ρ a t) / c) →
      HasDerivAt (fun s => ρ (a + (s - ρ a t) / c) n) v s := by
    intro n v s hd
    have h1 : HasDerivAt (fun s : ℝ => a + (s - ρ a t) / c) (1 / c) s :=
      (((hasDerivAt_id' s).sub_const _).div_const c).const_add a
    refine (HasDerivAt.comp s hd h1).congr_deriv ?_
    field_simp
  have hlamne : ∀ x ∈ q.states.map Dyn.name ++ q.controls, ∀ s ∈ q.states, x ≠ lamName s.name := by
    intro x hx s hs e
    have hnd := hn.nodup
    rw [List.append_assoc, List.nodup_append] at hnd
    have hl : lamName s.name ∈ q.states.map (fun s => lamName s.name) := List.mem_map.2 ⟨s, hs, rfl⟩
    rcases List.mem_append.1 hx with hx | hx
    · exact hnd.2.2 x hx _ (List.mem_append_left _ hl) e
    · exact (List.nodup_append.1 hnd.2.1).2.2 _ hl x hx e.symm
  have hmemi : ∀ d ∈ init, d ∈ q.states := fun d hd => by simp [hst, hd]
  have hpart : ∀ σ, SmoothRates q U σ → ∀ x ∈ q.states.map Dyn.name ++ q.controls,
      HasPartial ((ocpOf U t init fixed q).ham fun n => σ (lamName n)) x (eval (real U) σ ((hexpr q).diff x)) σ :=
    fun σ hs x hx => ham_partial hst (hlamne x hx) (hasPartial_H hs x)
  have hham := h.energy hn hst hfix hsm fixed
  have hs0 : ∀ s ∈ q.states, HasPartial (lagrange (fun σ => eval (real U) σ q.costInitial)
      (q.initial.map fun c σ => eval (real U) σ c.expr) fun i => ρ a ("_nu_0_" ++ toString i)) s.name
      (eval (real U) (ρ a) ((phi0 q).diff s.name)) (ρ a) ∧
      |eval (real U) (ρ a) ((phi0 q).diff s.name) + ρ a (lamName s.name)| ≤ ε := by
    intro s hs
    have h1 := hasPartial_end "_nu_0_" hsa.1 hsa.2 s.name
    have h2 := h.initial { expr := sym (lamName s.name) + (phi0 q).diff s.name }
      (List.mem_append_right _ (List.mem_map.2 ⟨s.name, List.mem_map_of_mem hs, rfl⟩))
    rw [eval_add, add_comm] at h2
    exact ⟨lagrange_partial (fun i => (hn.nu s hs i).1) h1, h2⟩
  have hsf : ∀ s ∈ q.states, HasPartial (lagrange (fun σ => eval (real U) σ q.costTerminal)
      (q.terminal.map fun c σ => eval (real U) σ c.expr) fun i => ρ a ("_nu_f_" ++ toString i)) s.name
      (eval (real U) (ρ b) ((phif q).diff s.name)) (ρ b) ∧
      |eval (real U) (ρ b) ((phif q).diff s.name) - ρ b (lamName s.name)| ≤ ε := by
    intro s hs
    have h1 := hasPartial_end "_nu_f_" hsb.1 hsb.2 s.name
    have h2 := h.terminal { expr := sym (lamName s.name) - (phif q).diff s.name }
      (List.mem_append_left _ (List.mem_append_right _ (List.mem_map.2 ⟨s.name, List.mem_map_of_mem hs, rfl⟩)))
    rw [eval_sub, abs_sub_comm] at h2
    simp only [hnu]
    exact ⟨lagrange_partial (fun i => (hn.nu s hs i).2) h1, h2⟩
  refine ⟨?_, ?_, ?_, ?_, ?_, ?_, ?_, ?_, ?_, ?_, ?_⟩
  · intro s hs
    change ρ (a + (s - ρ a t) / c) t = s
    rw [hline _ (hin s hs)]
    field_simp
    ring
  · intro s hs τ hτ
    have hm := hfx s hs
    have := eq_end_of_deriv_zero hm
    rw [hea, this _ (hin τ hτ), this a ⟨le_refl _, hab⟩]
  · intro r hr s hs
    obtain ⟨d, hd, rfl⟩ := List.mem_map.1 hr
    exact hre _ _ _ (h.motion _ (hin s hs) d (hmemi d hd))
  · intro r hr s hs
    obtain ⟨d, hd, rfl⟩ := List.mem_map.1 hr
    refine ⟨_, hpart _ (hsm _ (hin s hs)) d.name (List.mem_append_left _ (List.mem_map_of_mem (hmemi d hd))), ?_⟩
    have := h.adjoint _ (hin s hs) ⟨lamName d.name, -((hexpr q).diff d.name)⟩
      (List.mem_map.2 ⟨d, by rw [hst]; simpa using hd, rfl⟩)
    have := hre _ _ _ this
    rwa [eval_neg] at this
  · intro u hu
    refine ⟨_, (h.stationary u hu).1, fun s hs => ?_⟩
    have := hpart _ (hsm _ (hin s hs)) u (List.mem_append_right _ hu)
    rw [(h.stationary u hu).2 _ (hin s hs)] at this
    exact this
  · intro f hf
    obtain ⟨k, hk, rfl⟩ := List.mem_map.1 hf
    dsimp only
    rw [hea]
    exact h.initial k (List.mem_append_left _ hk)
  · intro f hf
    obtain ⟨k, hk, rfl⟩ := List.mem_map.1 hf
    dsimp only
    rw [heb]
    exact h.terminal k (List.mem_append_left _ (List.mem_append_left _ hk))
  · intro r hr
    obtain ⟨d, hd, rfl⟩ := List.mem_map.1 hr
    dsimp only
    rw [hea]
    exact ⟨_, hs0 d (hmemi d hd)⟩
  · intro r hr
    obtain ⟨d, hd, rfl⟩ := List.mem_map.1 hr
    dsimp only
    rw [heb]
    exact ⟨_, hsf d (hmemi d hd)⟩
  · rw [hea, heb]
    have e := hham a ⟨le_refl _, hab⟩
    obtain ⟨e1, e2⟩ := hs0 _ htm
    refine ⟨_, e1, ?_⟩
    change |_ - (ocpOf U t init fixed q).ham (fun n => ρ a (lamName n)) (ρ a)| ≤
      2 * ε + η * (q.controls.map fun u => |ρ b u - ρ a u|).sum
    have := abs_sub_le (eval (real U) (ρ a) ((phi0 q).diff t)) (-(ρ a (lamName t)))
      ((ocpOf U t init fixed q).ham (fun n => ρ a (lamName n)) (ρ a))
    rw [sub_neg_eq_add, ← abs_neg (-(ρ a (lamName t)) - _), neg_sub, sub_neg_eq_add] at this
    linarith
  · rw [heb]
    have e := hham b ⟨hab, le_refl _⟩
    obtain ⟨e1, e2⟩ := hsf _ htm
    refine ⟨_, e1, ?_⟩
    change |_ + (ocpOf U t init fixed q).ham (fun n => ρ b (lamName n)) (ρ b)| ≤ 2 * ε
    have h0 : (q.controls.map fun u => |ρ b u - ρ b u|).sum = 0 := sum_zero' fun y hy => by
      obtain ⟨u, -, rfl⟩ := List.mem_map.1 hy
      simp
    rw [h0, mul_zero, add_zero] at e
    have := abs_add_le (eval (real U) (ρ b) ((phif q).diff t) - ρ b (lamName t))
      ((ocpOf U t init fixed q).ham (fun n => ρ b (lamName n)) (ρ b) + ρ b (lamName t))
    rw [show eval (real U) (ρ b) ((phif q).diff t) - ρ b (lamName t) +
      ((ocpOf U t init fixed q).ham (fun n => ρ b (lamName n)) (ρ b) + ρ b (lamName t)) =
      eval (real U) (ρ b) ((phif q).diff t) + (ocpOf U t init fixed q).ham (fun n => ρ b (lamName n)) (ρ b) by ring] at this
    linarith

end Beluga.Opt
