import Verif.Symbolic.Control
import Mathlib.Analysis.Calculus.MeanValue

/-! # Curves that follow the generated equations (specification of C29, C30, C32) -/

namespace Beluga.Sym

open Expr

/-- Everything that is integrated along the trajectory. -/
def Prob.moving (p : Prob) : List Dyn := p.states ++ p.costates ++ p.quads ++ p.coparameters

/-- A curve of values on `[a, b]` along which each listed variable has `c` times its rate.  (A solution on a closed
interval can be continued beyond its ends, so that the derivatives at the ends are two-sided.) -/
def Follows (U : Name → Nat → ℝ → ℝ) (dyn : List Dyn) (c a b : ℝ) (ρ : ℝ → Name → ℝ) : Prop :=
  ∀ t ∈ Set.Icc a b, ∀ d ∈ dyn, HasDerivAt (fun τ => ρ τ d.name) (c * eval (real U) (ρ t) d.eom) t

/-- The symbol has rate `v` along the curve. -/
def Moves (a b : ℝ) (ρ : ℝ → Name → ℝ) (v : ℝ) (s : Name) : Prop :=
  ∀ t ∈ Set.Icc a b, HasDerivAt (fun τ => ρ τ s) v t

/-- All conditions in a list hold at `ρ`. -/
def Holds (U : Name → Nat → ℝ → ℝ) (ρ : Name → ℝ) (cons : List Con) : Prop := ∀ c ∈ cons, eval (real U) ρ c.expr = 0

theorem eq_end_of_deriv_zero {f : ℝ → ℝ} {a b : ℝ} (h : ∀ t ∈ Set.Icc a b, HasDerivAt f 0 t) :
    ∀ t ∈ Set.Icc a b, f t = f b := by
  intro t ht
  have hab : a ≤ b := ht.1.trans ht.2
  have := constant_of_has_deriv_right_zero (f := f) (a := a) (b := b)
    (fun x hx => (h x hx).continuousAt.continuousWithinAt) (fun x hx => (h x ⟨hx.1, hx.2.le⟩).hasDerivWithinAt)
  rw [this t ht, this b ⟨hab, le_refl _⟩]

/-- Derivative of an expression along a curve, as a sum over the variables it may depend on. -/
theorem Follows.deriv {U : Name → Nat → ℝ → ℝ} {dyn : List Dyn} {c a b : ℝ} {ρ : ℝ → Name → ℝ}
    (hf : Follows U dyn c a b ρ) (hn : (dyn.map Dyn.name).Nodup) {e : Expr}
    (hother : ∀ s ∈ e.free, s ∉ dyn.map Dyn.name → Moves a b ρ 0 s) {t : ℝ} (ht : t ∈ Set.Icc a b)
    (hs : Smooth U (ρ t) e) :
    HasDerivAt (fun τ => eval (real U) (ρ τ) e)
      (c * (dyn.map fun d => eval (real U) (ρ t) (e.diff d.name) * eval (real U) (ρ t) d.eom).sum) t := by
  have h := hasDerivAt_eval (U := U) (ρ := ρ) (v := fun s => _root_.deriv (fun τ => ρ τ s) t) (t := t) hn (e := e)
    (by
      intro s hs'
      by_cases hm : s ∈ dyn.map Dyn.name
      · obtain ⟨d, hd, rfl⟩ := List.mem_map.1 hm
        have := hf t ht d hd
        rw [this.deriv]; exact this
      · have := hother s hs' hm t ht
        rw [this.deriv]; exact this)
    (by
      intro s hs'
      by_cases hm : s ∈ dyn.map Dyn.name
      · exact Or.inl hm
      · exact Or.inr (hother s hs' hm t ht).deriv)
    hs
  refine h.congr_deriv ?_
  rw [List.map_map, ← List.sum_map_mul_left]
  congr 1
  apply List.map_congr_left
  intro d hd
  simp only [Function.comp_apply]
  rw [(hf t ht d hd).deriv]
  ring

end Beluga.Sym
