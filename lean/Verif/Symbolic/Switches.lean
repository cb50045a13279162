import Verif.Symbolic.Props1

/-!
# Which function a switch selects (C26)

A switch has a list of functions and, in the same order, a list of lists of conditions (components_structures.py:259-283).  Here the property says what the documentation of a switch says: the function is taken all of whose
conditions hold, when no other function has all its conditions; a function without conditions is always taken.
-/

open Filter Topology

namespace Beluga.Sym

open Expr

/-- The property as a user states it: if all conditions of the function `f` hold, and for each other function a condition fails, then
the switch tends to `f` when the tolerance tends to zero. -/
def SwitchChooses (s : Switch) : Prop :=
  ∀ (U : Name → Nat → ℝ → ℝ) (ρ : Name → ℝ) (tol : Name) (i : Nat) (f : Expr), s.tol = sym tol →
    (∀ f ∈ s.functions, tol ∉ f.free) → (∀ cs ∈ s.conditions, ∀ c ∈ cs, tol ∉ c.free) →
    s.functions[i]? = some f → (∀ c ∈ s.conditions.getD i [], eval (real U) ρ c < 0) →
    (∀ j, j < s.functions.length → j ≠ i → ∃ c ∈ s.conditions.getD j [], 0 < eval (real U) ρ c) →
    (∀ cs ∈ s.conditions, ∀ c ∈ cs, eval (real U) ρ c ≠ 0) →
    Tendsto (fun τ : ℝ => eval (real U) (Function.update ρ tol τ) s.sympify.symFunc) (𝓝[>] 0)
      (𝓝 (eval (real U) ρ f))

/-- C26, what a switch tends to in all cases: the sum of the functions, each as often as it has conditions that hold. -/
theorem C26_limit (s : Switch) (U : Name → Nat → ℝ → ℝ) (ρ : Name → ℝ) (tol : Name) (ht : s.tol = sym tol)
    (hf : ∀ f ∈ s.functions, tol ∉ f.free) (hc : ∀ cs ∈ s.conditions, ∀ c ∈ cs, tol ∉ c.free)
    (hz : ∀ cs ∈ s.conditions, ∀ c ∈ cs, eval (real U) ρ c ≠ 0) :
    Tendsto (fun τ : ℝ => eval (real U) (Function.update ρ tol τ) s.sympify.symFunc) (𝓝[>] 0)
      (𝓝 ((s.functions.zip s.conditions).map fun fc =>
        ((fc.2.filter fun c => decide (eval (real U) ρ c < 0)).length : ℝ) * eval (real U) ρ fc.1).sum) := by
  have h := tendsto_switch (U := U) (ρ := ρ) s ht hf fun cs hcs c hcc => ⟨hc cs hcs c hcc, hz cs hcs c hcc⟩
  simpa only [satisfied, List.countP_eq_length_filter] using h

/-- C26.  A switch all of whose functions have exactly one condition selects (the general property fails, see below). -/
theorem C26_chooses_partial (s : Switch) (hl : s.functions.length ≤ s.conditions.length)
    (h1 : ∀ cs ∈ s.conditions, cs.length = 1) : SwitchChooses s := by
  intro U ρ tol i f ht hf hc hi hpos hneg hz
  have hi' : i < s.functions.length := by
    by_contra h
    rw [List.getElem?_eq_none (by omega)] at hi
    cases hi
  have key : ∀ j (hj : j < s.conditions.length), s.conditions.getD j [] = s.conditions[j] := by
    intro j hj
    simp [hj]
  refine C26_selects_partial s h1 U ρ tol i f s.conditions[i] ht hf hc ?_ ?_ ?_ hz
  · rw [List.getElem?_zip_eq_some]
    exact ⟨hi, List.getElem?_eq_getElem _⟩
  · rw [← key]
    exact hpos
  · intro j f' cs' hj hb c hcc
    rw [List.getElem?_zip_eq_some] at hb
    obtain ⟨hb1, hb2⟩ := hb
    have hj' : j < s.functions.length := by
      by_contra h
      rw [List.getElem?_eq_none (by omega)] at hb1
      cases hb1
    obtain ⟨d, hd, hd0⟩ := hneg j hj' hj
    rw [key j (by omega)] at hd
    rw [List.getElem?_eq_getElem (by omega), Option.some.injEq] at hb2
    rw [hb2] at hd
    obtain ⟨e, he⟩ := List.length_eq_one_iff.1 (h1 cs' (by
      have := List.getElem_mem (l := s.conditions) (n := j) (by omega)
      rwa [hb2] at this))
    rw [he, List.mem_singleton] at hcc hd
    rw [hcc, ← hd]
    exact hd0

/-- C26 is violated by functions without conditions, with an empty list or with no list at all: the switch is zero. -/
theorem C26_violated_unconditional (f : Expr) (name tol : Name) (conds : List (List Expr)) (h0 : conds = [] ∨ conds = [[]])
    (hf : tol ∉ f.free) (U : Name → Nat → ℝ → ℝ) (ρ : Name → ℝ) (hv : eval (real U) ρ f ≠ 0) :
    ¬ SwitchChooses ⟨name, [f], conds, sym tol, 0⟩ := by
  intro h
  set s : Switch := ⟨name, [f], conds, sym tol, 0⟩ with hs
  have hcs : ∀ cs ∈ s.conditions, ∀ c ∈ cs, False := by
    rcases h0 with h0 | h0 <;> simp [hs, h0]
  have h1 := h U ρ tol 0 f rfl (by simpa [hs] using hf) (fun cs hc c hcc => (hcs cs hc c hcc).elim) rfl
    (by rcases h0 with h0 | h0 <;> simp [hs, h0])
    (fun j hj hj0 => by
      simp [hs] at hj
      omega)
    (fun cs hc c hcc => (hcs cs hc c hcc).elim)
  have h2 := C26_limit s U ρ tol rfl (by simpa [hs] using hf) (fun cs hc c hcc => (hcs cs hc c hcc).elim)
    (fun cs hc c hcc => (hcs cs hc c hcc).elim)
  have e := tendsto_nhds_unique h1 h2
  apply hv
  rcases h0 with h0 | h0 <;> simpa [hs, h0] using e

/-- C26 is violated by a function of which one condition holds and another fails: it is added to the one selected. -/
theorem C26_violated_leak (f g c a b : Expr) (name tol : Name) (hf : ∀ e ∈ [f, g, c, a, b], tol ∉ e.free)
    (U : Name → Nat → ℝ → ℝ) (ρ : Name → ℝ) (hc : eval (real U) ρ c < 0) (ha : eval (real U) ρ a < 0)
    (hb : 0 < eval (real U) ρ b) (hg : eval (real U) ρ g ≠ 0) :
    ¬ SwitchChooses ⟨name, [f, g], [[c], [a, b]], sym tol, 0⟩ := by
  intro h
  have hfr : ∀ cs ∈ [[c], [a, b]], ∀ d ∈ cs, tol ∉ d.free := by
    intro cs hcs d hd
    apply hf
    simp only [List.mem_cons, List.not_mem_nil, or_false] at hcs
    rcases hcs with rfl | rfl <;> simp only [List.mem_cons, List.not_mem_nil, or_false] at hd ⊢ <;> tauto
  have hz : ∀ cs ∈ [[c], [a, b]], ∀ d ∈ cs, eval (real U) ρ d ≠ 0 := by
    intro cs hcs d hd
    simp only [List.mem_cons, List.not_mem_nil, or_false] at hcs
    rcases hcs with rfl | rfl <;> simp only [List.mem_cons, List.not_mem_nil, or_false] at hd
    · rw [hd]; exact hc.ne
    · rcases hd with rfl | rfl
      · exact ha.ne
      · exact hb.ne'
  have hfs : ∀ e ∈ [f, g], tol ∉ e.free := fun e he => hf e (by
    simp only [List.mem_cons, List.not_mem_nil, or_false] at he ⊢
    tauto)
  have h1 := h U ρ tol 0 f rfl hfs hfr rfl (by simpa using hc)
    (fun j hj hj0 => by
      have : j = 1 := by
        simp at hj
        omega
      subst this
      exact ⟨b, by simp, hb⟩) hz
  have h2 := C26_limit ⟨name, [f, g], [[c], [a, b]], sym tol, 0⟩ U ρ tol rfl hfs hfr hz
  have e := tendsto_nhds_unique h1 h2
  apply hg
  simpa [hc, ha, hb.le, not_lt.2 hb.le] using e

/-- A two-phase switch selects. -/
example : SwitchChooses ⟨"sw", [sym "f", sym "g"], [[sym "c"], [-sym "c"]], sym "tol", 0⟩ :=
  C26_chooses_partial _ (by simp) (by simp)

/-- With a default at the end, as in `switch('F', ['T1', 'T2'], [['t - 1']], 'tol')`, the default is dropped. -/
example : ¬ SwitchChooses ⟨"sw", [sym "f"], [], sym "tol", 0⟩ :=
  C26_violated_unconditional (sym "f") "sw" "tol" [] (.inl rfl) (by decide) (fun _ _ x => x) (fun _ => 1) (by norm_num [eval])

/-- Three phases: before 1, between 1 and 2.  Before 1 the second function is added, because its condition `t < 2` holds. -/
example : ¬ SwitchChooses ⟨"sw", [sym "f", sym "g"], [[sym "t" - 1], [sym "t" - 2, 1 - sym "t"]], sym "tol", 0⟩ :=
  C26_violated_leak (sym "f") (sym "g") (sym "t" - 1) (sym "t" - 2) (1 - sym "t") "sw" "tol" (by decide) (fun _ _ x => x)
    (fun s => if s = "t" then 0 else 1) (by norm_num [eval]) (by norm_num [eval]) (by norm_num [eval]) (by simp [eval])

end Beluga.Sym
