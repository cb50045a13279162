import Verif.Extremal.Pipeline
import Mathlib.Analysis.Calculus.MeanValue

/-!
# Differential equations that hold up to a defect

A numerical integrator follows the equations only up to an error.  The chain from the generated boundary value problem to the
necessary conditions of the stated problem, with a bound for the difference between the derivatives of the curve and the right
hand sides.
-/

namespace Beluga.Opt

open Beluga.Sym Beluga.Sym.Expr

variable {U : Name → Nat → ℝ → ℝ}

/-! ### Specification -/

/-- The curve satisfies the first-order necessary conditions up to tolerances: the equations of motion and the adjoint
equations up to `δ`, the stationarity of the controls up to `η`, the boundary conditions and the transversality conditions for
the states up to `ε`, those for the end times up to `2 ε`, at the start increased by `κ`. -/
structure DefectExtremal (O : Ocp) (ε η δ κ a b : ℝ) (x : ℝ → Env) (lam : ℝ → Name → ℝ) (ν₀ ν₁ : Nat → ℝ) : Prop where
  time : ∀ t ∈ Set.Icc a b, x t O.ind = t
  fixed : ∀ s ∈ O.fixed, ∀ t ∈ Set.Icc a b, x t s = x a s
  motion : ∀ r ∈ O.rates, ∀ t ∈ Set.Icc a b, ∃ v, HasDerivAt (fun τ => x τ r.1) v t ∧ |v - r.2 (x t)| ≤ δ
  adjoint : ∀ r ∈ O.rates, ∀ t ∈ Set.Icc a b, ∃ d v, HasPartial (O.ham (lam t)) r.1 d (x t) ∧
    HasDerivAt (fun τ => lam τ r.1) v t ∧ |v + d| ≤ δ
  stationary : ∀ u ∈ O.controls, ∀ t ∈ Set.Icc a b, ∃ r, |r| ≤ η ∧ HasPartial (O.ham (lam t)) u r (x t)
  initial : ∀ c ∈ O.initial, |c (x a)| ≤ ε
  terminal : ∀ c ∈ O.terminal, |c (x b)| ≤ ε
  start : ∀ r ∈ O.rates, ∃ d, HasPartial (lagrange O.costInitial O.initial ν₀) r.1 d (x a) ∧ |d + lam a r.1| ≤ ε
  stop : ∀ r ∈ O.rates, ∃ d, HasPartial (lagrange O.costTerminal O.terminal ν₁) r.1 d (x b) ∧ |d - lam b r.1| ≤ ε
  start_time : ∃ d, HasPartial (lagrange O.costInitial O.initial ν₀) O.ind d (x a) ∧ |d - O.ham (lam a) (x a)| ≤ 2 * ε + κ
  stop_time : ∃ d, HasPartial (lagrange O.costTerminal O.terminal ν₁) O.ind d (x b) ∧ |d + O.ham (lam b) (x b)| ≤ 2 * ε

/-- The variables in the list follow their equations at the pace `c` up to `δ`. -/
def Shadows (U : Name → Nat → ℝ → ℝ) (L : List Dyn) (c δ a b : ℝ) (ρ : ℝ → Env) : Prop :=
  ∀ t ∈ Set.Icc a b, ∀ d ∈ L, ∃ v, HasDerivAt (fun τ => ρ τ d.name) v t ∧ |v - c * eval (real U) (ρ t) d.eom| ≤ δ

/-- The value of the expression, where the rates of the problem are defined, depends on the parameters and constants only. -/
def Steady (U : Name → Nat → ℝ → ℝ) (p : Prob) (e : Expr) : Prop :=
  ∀ σ σ' : Env, (∀ s ∈ p.parameters ++ p.constants, σ s = σ' s) →
    (∀ d ∈ p.states, Defined (real U) σ d.eom ∧ Defined (real U) σ' d.eom) → eval (real U) σ e = eval (real U) σ' e

/-- A solution of a boundary value problem whose boundary conditions hold up to `ε` and whose differential equations hold up
to `δ`; those whose right hand sides depend on parameters and constants only hold exactly. -/
structure DefectSolves (U : Name → Nat → ℝ → ℝ) (p : Prob) (ε δ a b : ℝ) (ρ : ℝ → Env) : Prop where
  follows : Shadows U p.states 1 δ a b ρ
  steady : ∀ t ∈ Set.Icc a b, ∀ d ∈ p.states, Steady U p d.eom →
    HasDerivAt (fun τ => ρ τ d.name) (eval (real U) (ρ t) d.eom) t
  fixed : ∀ s, s ∉ p.states.map Dyn.name → s ∉ p.quads.map Dyn.name → s ∉ p.controls → s ≠ p.ind → Moves a b ρ 0 s
  law : p.controls ≠ [] → ∀ t ∈ Set.Icc a b, ∃ opt ∈ p.controlLaw,
    List.Forall₂ (fun u e => ρ t u = eval (real U) (ρ t) e) p.controls opt
  initial : Nearly U ε (ρ a) p.initial
  terminal : Nearly U ε (ρ b) p.terminal

/-- Bounds along a curve: `M` for the derivatives of the Hamiltonian by the states, the costates and the controls, `N` for its second
derivatives by a control and another variable, `V` for the speed of the controls. -/
structure Sized (U : Name → Nat → ℝ → ℝ) (q : Prob) (M N V a b : ℝ) (ρ : ℝ → Env) : Prop where
  ham : ∀ t ∈ Set.Icc a b, (q.states.map fun s => |eval (real U) (ρ t) ((hexpr q).diff s.name)| +
    |eval (real U) (ρ t) s.eom|).sum + (q.controls.map fun u => |eval (real U) (ρ t) ((hexpr q).diff u)|).sum ≤ M
  second : ∀ t ∈ Set.Icc a b, ∀ u ∈ q.controls,
    ((q.states.map Dyn.name ++ q.states.map (fun s => lamName s.name) ++ q.controls).map fun x =>
      |eval (real U) (ρ t) (((hexpr q).diff u).diff x)|).sum ≤ N
  speed : ∀ t ∈ Set.Icc a b, (q.controls.map fun u => |deriv (fun τ => ρ τ u) t|).sum ≤ V

/-! ### Lemmas -/

/-- Without a defect these are the curves of `NearlySolves`. -/
theorem defectSolves_zero {p : Prob} {ε a b : ℝ} {ρ : ℝ → Env} : DefectSolves U p ε 0 a b ρ ↔ NearlySolves U p ε a b ρ := by
  constructor
  · intro h
    refine ⟨fun t ht d hd => ?_, h.fixed, h.law, h.initial, h.terminal⟩
    obtain ⟨v, h1, h2⟩ := h.follows t ht d hd
    rwa [sub_eq_zero.1 (abs_nonpos_iff.1 h2)] at h1
  · intro h
    refine ⟨fun t ht d hd => ⟨_, h.follows t ht d hd, by simp⟩, fun t ht d hd _ => ?_, h.fixed, h.law, h.initial, h.terminal⟩
    have := h.follows t ht d hd
    rwa [one_mul] at this

/-- A function changes at most by a bound of its derivative times the length. -/
theorem change_le {f : ℝ → ℝ} {a b C : ℝ} (h : ∀ t ∈ Set.Icc a b, ∃ v, HasDerivAt f v t ∧ |v| ≤ C) {t : ℝ} (ht : t ∈ Set.Icc a b) :
    |f b - f t| ≤ C * (b - t) := by
  have hd : ∀ x ∈ Set.Icc a b, HasDerivWithinAt f (deriv f x) (Set.Icc a b) x := fun x hx => by
    obtain ⟨v, hv, -⟩ := h x hx
    exact hv.differentiableAt.hasDerivAt.hasDerivWithinAt
  have hb : ∀ x ∈ Set.Icc a b, ‖deriv f x‖ ≤ C := fun x hx => by
    obtain ⟨v, hv, hC⟩ := h x hx
    rw [hv.deriv]
    exact hC
  have := Convex.norm_image_sub_le_of_norm_hasDerivWithin_le hd hb (convex_Icc a b) ht ⟨ht.1.trans ht.2, le_refl b⟩
  rwa [Real.norm_eq_abs, Real.norm_eq_abs, abs_of_nonneg (sub_nonneg.2 ht.2)] at this

theorem abs_sum_mul_le {α : Type} {l : List α} {f g : α → ℝ} {δ : ℝ} (h : ∀ u ∈ l, |g u| ≤ δ) :
    |(l.map fun u => f u * g u).sum| ≤ δ * (l.map fun u => |f u|).sum := by
  induction l with
  | nil => simp
  | cons u l ih =>
    simp only [List.map_cons, List.sum_cons, mul_add]
    refine (abs_add_le _ _).trans (add_le_add ?_ (ih fun w hw => h w (by simp [hw])))
    rw [abs_mul, mul_comm]
    exact mul_le_mul_of_nonneg_right (h u (by simp)) (abs_nonneg _)

theorem Shadows.left {L M : List Dyn} {c δ a b : ℝ} {ρ : ℝ → Env} (h : Shadows U (L ++ M) c δ a b ρ) :
    Shadows U L c δ a b ρ := fun t ht d hd => h t ht d (List.mem_append_left _ hd)

theorem Shadows.right {L M : List Dyn} {c δ a b : ℝ} {ρ : ℝ → Env} (h : Shadows U (L ++ M) c δ a b ρ) :
    Shadows U M c δ a b ρ := fun t ht d hd => h t ht d (List.mem_append_right _ hd)

/-- Derivative of an expression along a curve that follows its equations up to a defect. -/
theorem Shadows.deriv {dyn : List Dyn} {c δ a b : ℝ} {ρ : ℝ → Env} (hf : Shadows U dyn c δ a b ρ)
    (hn : (dyn.map Dyn.name).Nodup) {e : Expr} (hother : ∀ s ∈ e.free, s ∉ dyn.map Dyn.name → Moves a b ρ 0 s) {t : ℝ}
    (ht : t ∈ Set.Icc a b) (hs : Smooth U (ρ t) e) :
    ∃ v, HasDerivAt (fun τ => eval (real U) (ρ τ) e) v t ∧
      |v - c * (dyn.map fun d => eval (real U) (ρ t) (e.diff d.name) * eval (real U) (ρ t) d.eom).sum| ≤
        δ * (dyn.map fun d => |eval (real U) (ρ t) (e.diff d.name)|).sum := by
  have h := hasDerivAt_eval (U := U) (ρ := ρ) (v := fun s => _root_.deriv (fun τ => ρ τ s) t) (t := t) hn (e := e)
    (by
      intro s hs'
      by_cases hm : s ∈ dyn.map Dyn.name
      · obtain ⟨d, hd, rfl⟩ := List.mem_map.1 hm
        obtain ⟨v, hv, -⟩ := hf t ht d hd
        exact hv.differentiableAt.hasDerivAt
      · exact (hother s hs' hm t ht).differentiableAt.hasDerivAt)
    (by
      intro s hs'
      by_cases hm : s ∈ dyn.map Dyn.name
      · exact Or.inl hm
      · exact Or.inr (hother s hs' hm t ht).deriv)
    hs
  refine ⟨_, h, ?_⟩
  have e1 : ((dyn.map Dyn.name).map fun s => eval (real U) (ρ t) (e.diff s) * _root_.deriv (fun τ => ρ τ s) t).sum =
      c * (dyn.map fun d => eval (real U) (ρ t) (e.diff d.name) * eval (real U) (ρ t) d.eom).sum +
      (dyn.map fun d => eval (real U) (ρ t) (e.diff d.name) *
        (_root_.deriv (fun τ => ρ τ d.name) t - c * eval (real U) (ρ t) d.eom)).sum := by
    rw [List.map_map, ← List.sum_map_mul_left, ← List.sum_map_add]
    congr 1
    refine List.map_congr_left fun d _ => ?_
    simp only [Function.comp_apply]
    ring
  rw [e1, add_sub_cancel_left]
  refine abs_sum_mul_le fun d hd => ?_
  obtain ⟨v, hv, hb⟩ := hf t ht d hd
  rw [hv.deriv]
  exact hb

/-- A solution of the dual problem up to tolerances, in a parameter that runs `c` times slower than time.  The costate of the
time may take up a share `θ` of the change of the Hamiltonian that comes from the controls. -/
structure DualDefect (U : Name → Nat → ℝ → ℝ) (q : Prob) (tn : Name) (ε η δ c a b : ℝ) (ρ : ℝ → Env) : Prop where
  pos : 0 < c
  motion : Shadows U q.states c δ a b ρ
  adjoint : Shadows U (q.states.dropLast.map fun s => ⟨lamName s.name, -((hexpr q).diff s.name)⟩) c δ a b ρ
  last : ∀ t ∈ Set.Icc a b, ∃ v, HasDerivAt (fun τ => ρ τ (lamName tn)) v t ∧ ∃ (θ : ℝ) (r : Name → ℝ), 0 ≤ θ ∧ θ ≤ 1 ∧
    (∀ u ∈ q.controls, |deriv (fun τ => ρ τ u) t - r u| ≤ δ) ∧
    |v + c * eval (real U) (ρ t) ((hexpr q).diff tn) +
      θ * (q.controls.map fun u => eval (real U) (ρ t) ((hexpr q).diff u) * r u).sum| ≤ δ
  clock : ∀ t ∈ Set.Icc a b, HasDerivAt (fun τ => ρ τ tn) c t
  controls : ∀ u ∈ q.controls, ∀ t ∈ Set.Icc a b, DifferentiableAt ℝ (fun τ => ρ τ u) t
  stationary : ∀ u ∈ q.controls, ∀ t ∈ Set.Icc a b, |eval (real U) (ρ t) ((hexpr q).diff u)| ≤ η
  initial : Nearly U ε (ρ a) (q.initial ++ (q.states.map Dyn.name).map fun n => { expr := sym (lamName n) + (phi0 q).diff n })
  terminal : Nearly U ε (ρ b) (q.terminal ++ ((q.states.map Dyn.name).map fun n =>
    ({ expr := sym (lamName n) - (phif q).diff n } : Con)) ++ [{ expr := (phif q).diff q.ind + hexpr q }])

section
variable {q : Prob} {tn : Name} {ε η δ c a b M N V : ℝ} {ρ : ℝ → Env}

/-- The Hamiltonian changes slowly. -/
theorem DualDefect.ham_rate (h : DualDefect U q tn ε η δ c a b ρ) (hn : Named q) (hδ : 0 ≤ δ) (hη : 0 ≤ η)
    {init : List Dyn} (hst : q.states = init ++ [⟨tn, 1⟩])
    (hfix : ∀ s ∈ (hexpr q).free, s ∉ q.states.map Dyn.name ++ q.states.map (fun s => lamName s.name) ++ q.controls →
      Moves a b ρ 0 s) (hsm : ∀ t ∈ Set.Icc a b, SmoothRates q U (ρ t)) (hz : Sized U q M N V a b ρ) :
    ∀ t ∈ Set.Icc a b, ∃ v, HasDerivAt (fun τ => eval (real U) (ρ τ) (hexpr q)) v t ∧ |v| ≤ δ * M + η * V := by
  intro t ht
  obtain ⟨vt, hvt, θ, r, hθ0, hθ1, hr, hlast⟩ := h.last t ht
  have htm : (⟨tn, 1⟩ : Dyn) ∈ q.states := by simp [hst]
  have hadj : ∀ s ∈ init, ∃ v, HasDerivAt (fun τ => ρ τ (lamName s.name)) v t ∧
      |v - c * eval (real U) (ρ t) (-((hexpr q).diff s.name))| ≤ δ := fun s hs =>
    h.adjoint t ht ⟨lamName s.name, -((hexpr q).diff s.name)⟩ (List.mem_map.2 ⟨s, by rw [hst]; simpa using hs, rfl⟩)
  have hd := hasDerivAt_eval (U := U) (ρ := ρ) (v := fun s => deriv (fun τ => ρ τ s) t) (t := t) hn.nodup (e := hexpr q)
    (by
      intro s hs
      by_cases hm : s ∈ q.states.map Dyn.name ++ q.states.map (fun s => lamName s.name) ++ q.controls
      · simp only [List.mem_append, List.mem_map] at hm
        rcases hm with (⟨d, hd, rfl⟩ | ⟨d, hd, rfl⟩) | hm
        · obtain ⟨v, hv, -⟩ := h.motion t ht d hd
          exact hv.differentiableAt.hasDerivAt
        · rw [hst, List.mem_append, List.mem_singleton] at hd
          rcases hd with hd | rfl
          · obtain ⟨v, hv, -⟩ := hadj d hd
            exact hv.differentiableAt.hasDerivAt
          · exact hvt.differentiableAt.hasDerivAt
        · exact (h.controls s hm t ht).hasDerivAt
      · exact (hfix s hs hm t ht).differentiableAt.hasDerivAt)
    (by
      intro s hs
      by_cases hm : s ∈ q.states.map Dyn.name ++ q.states.map (fun s => lamName s.name) ++ q.controls
      · exact Or.inl hm
      · exact Or.inr (hfix s hs hm t ht).deriv)
    (smooth_hamiltonianOf (hsm t ht))
  refine ⟨_, hd, ?_⟩
  simp only [List.map_append, List.sum_append, List.map_map, Function.comp_def]
  set G := (q.controls.map fun u => eval (real U) (ρ t) ((hexpr q).diff u) * r u).sum with hG
  set W := (q.controls.map fun u => eval (real U) (ρ t) ((hexpr q).diff u) * deriv (fun τ => ρ τ u) t).sum with hW
  have e1 : (q.states.map fun s => eval (real U) (ρ t) ((hexpr q).diff s.name) * deriv (fun τ => ρ τ s.name) t).sum +
      (q.states.map fun s => eval (real U) (ρ t) ((hexpr q).diff (lamName s.name)) *
        deriv (fun τ => ρ τ (lamName s.name)) t).sum =
      (q.states.map fun s => eval (real U) (ρ t) ((hexpr q).diff s.name) *
        (deriv (fun τ => ρ τ s.name) t - c * eval (real U) (ρ t) s.eom)).sum +
      (q.states.map fun s => eval (real U) (ρ t) s.eom *
        (deriv (fun τ => ρ τ (lamName s.name)) t - c * eval (real U) (ρ t) (-((hexpr q).diff s.name)))).sum := by
    rw [← List.sum_map_add, ← List.sum_map_add]
    congr 1
    refine List.map_congr_left fun s hs => ?_
    rw [show lamName s.name = "_lam_" ++ s.name from rfl, diff_lam hn.lam hs, eval_neg]
    ring
  have e2 : (q.states.map fun s => eval (real U) (ρ t) s.eom *
        (deriv (fun τ => ρ τ (lamName s.name)) t - c * eval (real U) (ρ t) (-((hexpr q).diff s.name)))).sum =
      (q.states.map fun s => eval (real U) (ρ t) s.eom * (if s ∈ init then
        deriv (fun τ => ρ τ (lamName s.name)) t - c * eval (real U) (ρ t) (-((hexpr q).diff s.name)) else
          vt + c * eval (real U) (ρ t) ((hexpr q).diff tn) + θ * G)).sum - θ * G := by
    have hni : (⟨tn, 1⟩ : Dyn) ∉ init := by
      intro hm
      have := hn.nodup
      rw [hst, List.append_assoc, List.nodup_append, List.map_append, List.nodup_append] at this
      exact this.1.2.2 tn (List.mem_map.2 ⟨_, hm, rfl⟩) tn (by simp) rfl
    generalize hL : q.states = L at hst
    subst hst
    rw [List.map_append, List.sum_append, List.map_append, List.sum_append, List.map_singleton, List.map_singleton,
      List.sum_singleton, List.sum_singleton, if_neg hni, eval_one, hvt.deriv, eval_neg]
    have : (init.map fun s => eval (real U) (ρ t) s.eom * (if s ∈ init then
        deriv (fun τ => ρ τ (lamName s.name)) t - c * eval (real U) (ρ t) (-((hexpr q).diff s.name)) else
          vt + c * eval (real U) (ρ t) ((hexpr q).diff tn) + θ * G)) = init.map fun s => eval (real U) (ρ t) s.eom *
        (deriv (fun τ => ρ τ (lamName s.name)) t - c * eval (real U) (ρ t) (-((hexpr q).diff s.name))) :=
      List.map_congr_left fun s hs => by rw [if_pos hs]
    rw [this]
    ring
  rw [e1, e2]
  have b1 := abs_sum_mul_le (l := q.states) (f := fun s => eval (real U) (ρ t) ((hexpr q).diff s.name))
    (g := fun s => deriv (fun τ => ρ τ s.name) t - c * eval (real U) (ρ t) s.eom) (δ := δ) (by
      intro s hs
      obtain ⟨v, hv, hb⟩ := h.motion t ht s hs
      rw [hv.deriv]
      exact hb)
  have b2 := abs_sum_mul_le (l := q.states) (f := fun s => eval (real U) (ρ t) s.eom)
    (g := fun s => if s ∈ init then
        deriv (fun τ => ρ τ (lamName s.name)) t - c * eval (real U) (ρ t) (-((hexpr q).diff s.name)) else
          vt + c * eval (real U) (ρ t) ((hexpr q).diff tn) + θ * G) (δ := δ) (by
      intro s hs
      split
      · next hi =>
        obtain ⟨v, hv, hb⟩ := hadj s hi
        rw [hv.deriv]
        exact hb
      · exact hlast)
  have b3 := abs_sum_le (l := q.controls) (g := fun u => deriv (fun τ => ρ τ u) t) fun u hu => h.stationary u hu t ht
  have b4 := abs_sum_mul_le (l := q.controls) (f := fun u => eval (real U) (ρ t) ((hexpr q).diff u))
    (g := fun u => deriv (fun τ => ρ τ u) t - r u) (δ := δ) hr
  have e3 : (q.controls.map fun u => eval (real U) (ρ t) ((hexpr q).diff u) * (deriv (fun τ => ρ τ u) t - r u)).sum = W - G := by
    rw [hW, hG, eq_sub_iff_add_eq, ← List.sum_map_add]
    congr 1
    exact List.map_congr_left fun u _ => by ring
  rw [e3] at b4
  rw [← hW] at b3
  have h1 := hz.ham t ht
  rw [List.sum_map_add] at h1
  have h2 := mul_le_mul_of_nonneg_left h1 hδ
  have h3 := b3.trans (mul_le_mul_of_nonneg_left (hz.speed t ht) hη)
  have h4 : |(1 - θ) * W + θ * (W - G)| ≤ η * V + δ * (q.controls.map fun u => |eval (real U) (ρ t) ((hexpr q).diff u)|).sum := by
    refine (abs_add_le _ _).trans (add_le_add ?_ ?_)
    · rw [abs_mul, abs_of_nonneg (sub_nonneg.2 hθ1)]
      exact (mul_le_of_le_one_left (abs_nonneg _) (by linarith)).trans h3
    · rw [abs_mul, abs_of_nonneg hθ0]
      exact (mul_le_of_le_one_left (abs_nonneg _) hθ1).trans b4
  have e4 : ∀ A B : ℝ, A + (B - θ * G) + W = A + B + ((1 - θ) * W + θ * (W - G)) := fun A B => by ring
  rw [e4]
  refine (abs_add_le _ _).trans ((add_le_add (abs_add_le _ _) h4).trans ?_)
  linarith

/-- The Hamiltonian is nearly zero along a solution. -/
theorem DualDefect.ham_small (h : DualDefect U q tn ε η δ c a b ρ) (hn : Named q) (hδ : 0 ≤ δ) (hη : 0 ≤ η)
    {init : List Dyn} (hst : q.states = init ++ [⟨tn, 1⟩])
    (hfix : ∀ s ∈ (hexpr q).free, s ∉ q.states.map Dyn.name ++ q.states.map (fun s => lamName s.name) ++ q.controls →
      Moves a b ρ 0 s) (hsm : ∀ t ∈ Set.Icc a b, SmoothRates q U (ρ t)) (hz : Sized U q M N V a b ρ) :
    ∀ t ∈ Set.Icc a b, |eval (real U) (ρ t) (hexpr q)| ≤ ε + (δ * M + η * V) * (b - t) := by
  intro t ht
  have h1 := change_le (h.ham_rate hn hδ hη hst hfix hsm hz) ht
  have h2 := h.terminal { expr := (phif q).diff q.ind + hexpr q } (by simp)
  simp only [eval_add, eval_diff_of_not_mem _ _ hn.ind, zero_add] at h2
  have h3 := abs_sub_abs_le_abs_sub (eval (real U) (ρ t) (hexpr q)) (eval (real U) (ρ b) (hexpr q))
  rw [abs_sub_comm] at h3
  linarith

theorem DualDefect.time_line (h : DualDefect U q tn ε η δ c a b ρ) : ∀ τ ∈ Set.Icc a b, ρ τ tn = ρ a tn + c * (τ - a) := by
  have h0 : ∀ τ ∈ Set.Icc a b, HasDerivAt (fun τ => ρ τ tn - c * (τ - a)) 0 τ := by
    intro τ hτ
    have h2 : HasDerivAt (fun τ => c * (τ - a)) (c * 1) τ := ((hasDerivAt_id' τ).sub_const a).const_mul c
    exact ((h.clock τ hτ).sub h2).congr_deriv (by ring)
  have hc := eq_end_of_deriv_zero h0
  intro τ hτ
  have e1 := hc τ hτ
  have e2 := hc a ⟨le_refl _, hτ.1.trans hτ.2⟩
  rw [← e2] at e1
  simp only [sub_self, mul_zero, sub_zero] at e1
  linarith

/-- The costate of time is nearly the negative of the Hamiltonian. -/
theorem DualDefect.energy (h : DualDefect U q tn ε η δ c a b ρ) (hn : Named q) (hδ : 0 ≤ δ) (hη : 0 ≤ η)
    {init : List Dyn} (hst : q.states = init ++ [⟨tn, 1⟩])
    (hfix : ∀ s ∈ (hexpr q).free, s ∉ q.states.map Dyn.name ++ q.states.map (fun s => lamName s.name) ++ q.controls →
      Moves a b ρ 0 s) (hsm : ∀ t ∈ Set.Icc a b, SmoothRates q U (ρ t)) (hz : Sized U q M N V a b ρ) (fixed : List Name) :
    ∀ τ ∈ Set.Icc a b, |(ocpOf U tn init fixed q).ham (fun n => ρ τ (lamName n)) (ρ τ) + ρ τ (lamName tn)| ≤
      ε + (δ * M + η * V) * (b - τ) := by
  intro τ hτ
  rw [ham_eq (U := U) hst fixed (ρ τ), ← eval_hamiltonianOf]
  exact h.ham_small hn hδ hη hst hfix hsm hz τ hτ

/-- A solution of the dual problem, run through in time, is an extremal up to the tolerances. -/
theorem DualDefect.extremal (h : DualDefect U q tn ε η δ c a b ρ) (hab : a ≤ b) (hn : Named q) (hδ : 0 ≤ δ) (hη : 0 ≤ η)
    {init : List Dyn} (hst : q.states = init ++ [⟨tn, 1⟩])
    (hfix : ∀ s ∈ (hexpr q).free, s ∉ q.states.map Dyn.name ++ q.states.map (fun s => lamName s.name) ++ q.controls →
      Moves a b ρ 0 s)
    {fixed : List Name} (hfx : ∀ s ∈ fixed, Moves a b ρ 0 s)
    (hnu : ∀ i : Nat, ρ a ("_nu_f_" ++ toString i) = ρ b ("_nu_f_" ++ toString i))
    (hsm : ∀ t ∈ Set.Icc a b, SmoothRates q U (ρ t)) (hsa : SmoothStart q U (ρ a)) (hsb : SmoothStop q U (ρ b))
    (hz : Sized U q M N V a b ρ) :
    DefectExtremal (ocpOf U tn init fixed q) ε η (δ / c) ((δ * M + η * V) * (b - a)) (ρ a tn) (ρ a tn + c * (b - a))
      (fun s => ρ (a + (s - ρ a tn) / c)) (fun s n => ρ (a + (s - ρ a tn) / c) ("_lam_" ++ n))
      (fun i => ρ a ("_nu_0_" ++ toString i)) (fun i => ρ a ("_nu_f_" ++ toString i)) := by
  have hc := h.pos
  have htm : (⟨tn, 1⟩ : Dyn) ∈ q.states := by simp [hst]
  have hline := h.time_line
  have hin : ∀ s ∈ Set.Icc (ρ a tn) (ρ a tn + c * (b - a)), a + (s - ρ a tn) / c ∈ Set.Icc a b := by
    intro s hs
    constructor
    · have := div_nonneg (sub_nonneg.2 hs.1) hc.le
      linarith
    · have : (s - ρ a tn) / c ≤ b - a := by
        rw [div_le_iff₀ hc]
        linarith [hs.2]
      linarith
  have hea : a + (ρ a tn - ρ a tn) / c = a := by simp
  have heb : a + (ρ a tn + c * (b - a) - ρ a tn) / c = b := by field_simp; ring
  have hre : ∀ (n : Name) (v w s : ℝ), HasDerivAt (fun τ => ρ τ n) v (a + (s - ρ a tn) / c) → |v - c * w| ≤ δ →
      HasDerivAt (fun s => ρ (a + (s - ρ a tn) / c) n) (v / c) s ∧ |v / c - w| ≤ δ / c := by
    intro n v w s hd hb
    have h1 : HasDerivAt (fun s : ℝ => a + (s - ρ a tn) / c) (1 / c) s :=
      (((hasDerivAt_id' s).sub_const _).div_const c).const_add a
    have h2 := HasDerivAt.comp s hd h1
    refine ⟨h2.congr_deriv (mul_one_div v c), ?_⟩
    have e : v / c - w = (v - c * w) / c := by field_simp
    rw [e, abs_div, abs_of_pos hc]
    exact div_le_div_of_nonneg_right hb hc.le
  have hlamne : ∀ x ∈ q.states.map Dyn.name ++ q.controls, ∀ s ∈ q.states, x ≠ lamName s.name := by
    intro x hx s hs e
    have hnd := hn.nodup
    rw [List.append_assoc, List.nodup_append] at hnd
    have hl : lamName s.name ∈ q.states.map (fun s => lamName s.name) := List.mem_map.2 ⟨s, hs, rfl⟩
    rcases List.mem_append.1 hx with hx | hx
    · exact hnd.2.2 x hx _ (List.mem_append_left _ hl) e
    · exact (List.nodup_append.1 hnd.2.1).2.2 _ hl x hx e.symm
  have hmemi : ∀ d ∈ init, d ∈ q.states := fun d hd => by simp [hst, hd]
  have hpart : ∀ σ, SmoothRates q U σ → ∀ x ∈ q.states.map Dyn.name ++ q.controls,
      HasPartial ((ocpOf U tn init fixed q).ham fun n => σ (lamName n)) x (eval (real U) σ ((hexpr q).diff x)) σ :=
    fun σ hs x hx => ham_partial hst (hlamne x hx) (hasPartial_H hs x)
  have hham := h.energy hn hδ hη hst hfix hsm hz fixed
  have hs0 : ∀ s ∈ q.states, HasPartial (lagrange (fun σ => eval (real U) σ q.costInitial)
      (q.initial.map fun c σ => eval (real U) σ c.expr) fun i => ρ a ("_nu_0_" ++ toString i)) s.name
      (eval (real U) (ρ a) ((phi0 q).diff s.name)) (ρ a) ∧
      |eval (real U) (ρ a) ((phi0 q).diff s.name) + ρ a (lamName s.name)| ≤ ε := by
    intro s hs
    have h1 := hasPartial_end "_nu_0_" hsa.1 hsa.2 s.name
    have h2 := h.initial { expr := sym (lamName s.name) + (phi0 q).diff s.name }
      (List.mem_append_right _ (List.mem_map.2 ⟨s.name, List.mem_map_of_mem hs, rfl⟩))
    rw [eval_add, add_comm] at h2
    exact ⟨lagrange_partial (fun i => (hn.nu s hs i).1) h1, h2⟩
  have hsf : ∀ s ∈ q.states, HasPartial (lagrange (fun σ => eval (real U) σ q.costTerminal)
      (q.terminal.map fun c σ => eval (real U) σ c.expr) fun i => ρ a ("_nu_f_" ++ toString i)) s.name
      (eval (real U) (ρ b) ((phif q).diff s.name)) (ρ b) ∧
      |eval (real U) (ρ b) ((phif q).diff s.name) - ρ b (lamName s.name)| ≤ ε := by
    intro s hs
    have h1 := hasPartial_end "_nu_f_" hsb.1 hsb.2 s.name
    have h2 := h.terminal { expr := sym (lamName s.name) - (phif q).diff s.name }
      (List.mem_append_left _ (List.mem_append_right _ (List.mem_map.2 ⟨s.name, List.mem_map_of_mem hs, rfl⟩)))
    rw [eval_sub, abs_sub_comm] at h2
    simp only [hnu]
    exact ⟨lagrange_partial (fun i => (hn.nu s hs i).2) h1, h2⟩
  refine ⟨?_, ?_, ?_, ?_, ?_, ?_, ?_, ?_, ?_, ?_, ?_⟩
  · intro s hs
    change ρ (a + (s - ρ a tn) / c) tn = s
    rw [hline _ (hin s hs)]
    field_simp
    ring
  · intro s hs τ hτ
    have := eq_end_of_deriv_zero (hfx s hs)
    rw [hea, this _ (hin τ hτ), this a ⟨le_refl _, hab⟩]
  · intro r hr s hs
    obtain ⟨d, hd, rfl⟩ := List.mem_map.1 hr
    obtain ⟨v, hv, hb⟩ := h.motion _ (hin s hs) d (hmemi d hd)
    exact ⟨_, hre _ _ _ _ hv hb⟩
  · intro r hr s hs
    obtain ⟨d, hd, rfl⟩ := List.mem_map.1 hr
    obtain ⟨v, hv, hb⟩ := h.adjoint _ (hin s hs) ⟨lamName d.name, -((hexpr q).diff d.name)⟩
      (List.mem_map.2 ⟨d, by rw [hst]; simpa using hd, rfl⟩)
    obtain ⟨h1, h2⟩ := hre _ _ _ _ hv hb
    refine ⟨_, _, hpart _ (hsm _ (hin s hs)) d.name (List.mem_append_left _ (List.mem_map_of_mem (hmemi d hd))), h1, ?_⟩
    rwa [eval_neg, sub_neg_eq_add] at h2
  · intro u hu s hs
    exact ⟨_, h.stationary u hu _ (hin s hs), hpart _ (hsm _ (hin s hs)) u (List.mem_append_right _ hu)⟩
  · intro f hf
    obtain ⟨k, hk, rfl⟩ := List.mem_map.1 hf
    dsimp only
    rw [hea]
    exact h.initial k (List.mem_append_left _ hk)
  · intro f hf
    obtain ⟨k, hk, rfl⟩ := List.mem_map.1 hf
    dsimp only
    rw [heb]
    exact h.terminal k (List.mem_append_left _ (List.mem_append_left _ hk))
  · intro r hr
    obtain ⟨d, hd, rfl⟩ := List.mem_map.1 hr
    dsimp only
    rw [hea]
    exact ⟨_, hs0 d (hmemi d hd)⟩
  · intro r hr
    obtain ⟨d, hd, rfl⟩ := List.mem_map.1 hr
    dsimp only
    rw [heb]
    exact ⟨_, hsf d (hmemi d hd)⟩
  · rw [hea]
    have e := hham a ⟨le_refl _, hab⟩
    obtain ⟨e1, e2⟩ := hs0 _ htm
    refine ⟨_, e1, ?_⟩
    change |_ - (ocpOf U tn init fixed q).ham (fun n => ρ a (lamName n)) (ρ a)| ≤ 2 * ε + (δ * M + η * V) * (b - a)
    have := abs_sub_le (eval (real U) (ρ a) ((phi0 q).diff tn)) (-(ρ a (lamName tn)))
      ((ocpOf U tn init fixed q).ham (fun n => ρ a (lamName n)) (ρ a))
    rw [sub_neg_eq_add, ← abs_neg (-(ρ a (lamName tn)) - _), neg_sub, sub_neg_eq_add] at this
    linarith
  · rw [heb]
    have e := hham b ⟨hab, le_refl _⟩
    obtain ⟨e1, e2⟩ := hsf _ htm
    refine ⟨_, e1, ?_⟩
    change |_ + (ocpOf U tn init fixed q).ham (fun n => ρ b (lamName n)) (ρ b)| ≤ 2 * ε
    rw [sub_self, mul_zero, add_zero] at e
    have := abs_add_le (eval (real U) (ρ b) ((phif q).diff tn) - ρ b (lamName tn))
      ((ocpOf U tn init fixed q).ham (fun n => ρ b (lamName n)) (ρ b) + ρ b (lamName tn))
    rw [show eval (real U) (ρ b) ((phif q).diff tn) - ρ b (lamName tn) +
      ((ocpOf U tn init fixed q).ham (fun n => ρ b (lamName n)) (ρ b) + ρ b (lamName tn)) =
      eval (real U) (ρ b) ((phif q).diff tn) + (ocpOf U tn init fixed q).ham (fun n => ρ b (lamName n)) (ρ b) by ring] at this
    linarith

end

end Beluga.Opt
