import Verif.Symbolic.Eliminate
import Verif.Symbolic.Regularise
import Mathlib.Order.Filter.AtTopBot.Field
import Mathlib.Analysis.SpecialFunctions.Exp

/-! # Quantities and switches (C25, C26) -/

namespace Beluga.Sym

open Expr Filter Topology

/-! ### C25 -/

/-- `ApplyQuantities` rewrites every equation of the problem by one function that removes all quantity symbols and
keeps the meaning, and changes nothing else; the order of declaration does not matter. -/
theorem C25_eliminated_partial (p : Prob) (hs : p.sympified = true) (ha : Acyclic (defsQ p.quantities)) :
    ∃ p' f, applyQuantities p = .ok p' ∧ p'.dropQuantities = p.dropQuantities.mapEqs f ∧
      Eliminates (defsQ p.quantities) f := by
  obtain ⟨r, hr⟩ := ha
  have h0 := mergeRows_ok p.quantities.length p.quantities (TableOk.refl hr) p.quantities.length
  obtain ⟨f, h1, h2⟩ := elimLoop_ok (defs := defsQ p.quantities) (r := r)
    { p with quantities := mergeRows p.quantities.length p.quantities p.quantities.length } h0 p.quantities.length
    (by simp [defsQ])
  refine ⟨_, f, ?_, h2, h1.eliminates (by simp [defsQ])⟩
  rw [applyQuantities, hs]
  rfl

/-- Whatever values the other symbols have, there are values for the quantities that satisfy their definitions, and
with those every original equation has the value that the rewritten equation has without knowing the quantities. -/
theorem C25_meaning (p : Prob) (hs : p.sympified = true) (ha : Acyclic (defsQ p.quantities))
    (hn : (p.quantities.map Quantity.name).Nodup) :
    ∃ p' f, applyQuantities p = .ok p' ∧ p'.dropQuantities = p.dropQuantities.mapEqs f ∧
      ∀ {K : Type} [Field K] (I : Interp K) (ρ : Name → K), ∃ ρ' : Name → K,
        (∀ s, s ∉ p.quantities.map Quantity.name → ρ' s = ρ s) ∧
        (∀ q ∈ p.quantities, ρ' q.name = eval I ρ' q.expr) ∧ ∀ e, eval I ρ (f e) = eval I ρ' e := by
  obtain ⟨p', f, h1, h2, h3⟩ := C25_eliminated_partial p hs ha
  have hN : (defsQ p.quantities).map Prod.fst = p.quantities.map Quantity.name := by
    simp [defsQ, List.map_map, Function.comp_def]
  refine ⟨p', f, h1, h2, fun I ρ => ?_⟩
  obtain ⟨ρ', e1, e2⟩ := exists_consistent ha (by rw [hN]; exact hn) I ρ
  refine ⟨ρ', fun s hs => e1 s (by rwa [hN]), fun q hq => e2 (q.name, q.expr) ?_, fun e => h3.value I e1 e2 e⟩
  exact List.mem_map.2 ⟨q, hq, rfl⟩

/-- Without sympification the functor refuses. -/
theorem C25_refuses (p : Prob) (hs : p.sympified = false) : applyQuantities p = .error .valueError := by
  rw [applyQuantities, hs]; rfl

/-- `a := b + 1`, `b := 2 c`, declared in the unfavourable order. -/
def exQ : Prob where
  states := [⟨"x", sym "a" * sym "b"⟩]
  quads := [⟨"w", sym "a"⟩]
  constants := ["c"]
  quantities := [⟨"a", sym "b" + 1, ["b"]⟩, ⟨"b", 2 * sym "c", ["c"]⟩]
  sympified := true

example : (applyQuantities exQ).map (fun p => (p.states.map Dyn.eom, p.quads.map Dyn.eom)) =
    .ok ([(2 * sym "c" + 1) * (2 * sym "c")], [2 * sym "c" + 1]) := by decide +kernel

example : Acyclic (defsQ exQ.quantities) :=
  ⟨fun s => if s = "a" then 1 else 0, by decide⟩

/-- **C25 is violated** in activators, which are not substituted: a quantity that is used as the activator of a bound on
a control is still there when the bound is regularised, and from then on it is a symbol of the cost that nothing
defines. -/
theorem C25_violated_activator {p : Prob} (hs : p.sympified = true) (ha : Acyclic (defsQ p.quantities)) {q u : Name}
    (hq : q ∈ p.quantities.map Quantity.name) (hu : u ∈ p.controls) (hu' : u ∉ p.quantities.map Quantity.name)
    {lo hi : Expr} (hc : p.path.find? (fun c => c.method = .epstrig) = some ⟨sym u, some lo, some hi, some (sym q), .epstrig⟩) :
    ∃ p' p'', applyQuantities p = .ok p' ∧ epsTrig p' = .ok p'' ∧ q ∈ p''.costPath.free := by
  obtain ⟨p', f, h1, h2, h3⟩ := C25_eliminated_partial p hs ha
  have hN : (defsQ p.quantities).map Prod.fst = p.quantities.map Quantity.name := by
    simp [defsQ, List.map_map, Function.comp_def]
  have hfu : f (sym u) = sym u := h3.fixes _ (by
    intro s hs; rw [hN]; simp only [free, List.mem_singleton] at hs; rwa [hs])
  have hpath : p'.path = p.path.map (Con.rw f) := by
    have : p'.dropQuantities.path = p.path.map (Con.rw f) := by rw [h2]; rfl
    exact this
  have hcon : p'.controls = p.controls := by
    have : p'.dropQuantities.controls = p.controls := by rw [h2]; rfl
    exact this
  have hsy : p'.sympified = true := by
    have : p'.dropQuantities.sympified = true := by rw [h2]; exact hs
    exact this
  have hfind : p'.path.find? (fun c => c.method = .epstrig) =
      some ⟨sym u, some (f lo), some (f hi), some (sym q), .epstrig⟩ := by
    rw [hpath, List.find?_map, show ((fun c : Con => decide (c.method = .epstrig)) ∘ Con.rw f) =
      fun c => decide (c.method = .epstrig) from rfl, hc]
    simp [Con.rw, hfu]
  obtain ⟨i, hi1, hi2⟩ : ∃ i, p'.path.findIdx? (fun c => c.method = .epstrig) = some i ∧
      p'.path[i]? = some ⟨sym u, some (f lo), some (f hi), some (sym q), .epstrig⟩ := by
    rw [List.find?_eq_some_iff_getElem] at hfind
    obtain ⟨hm, i, hl, he, hb⟩ := hfind
    refine ⟨i, ?_, by rw [List.getElem?_eq_getElem hl, he]⟩
    rw [List.findIdx?_eq_some_iff_getElem]
    exact ⟨hl, by rw [he]; rfl, fun j hj => by simpa using hb j hj⟩
  obtain ⟨k, hk1, hk2⟩ : ∃ k, p'.controls.findIdx? (fun v => sym u = sym v) = some k ∧ p'.controls[k]? = some u := by
    rw [hcon]
    cases hf : p.controls.findIdx? (fun v => decide (sym u = sym v)) with
    | none =>
      rw [List.findIdx?_eq_none_iff] at hf
      simpa using hf u hu
    | some k =>
      obtain ⟨hl, he, -⟩ := List.findIdx?_eq_some_iff_getElem.1 hf
      refine ⟨k, rfl, ?_⟩
      rw [List.getElem?_eq_getElem hl]
      have : u = p.controls[k] := by simpa using he
      rw [← this]
  have he : ∃ p'', epsTrig p' = .ok p'' ∧ ∃ e new r, p''.costPath = Expr.subs u e (r + (-sym q) * fn .cos new) := by
    rw [epsTrig, hsy, hi1]
    simp only [Bool.not_true, Bool.false_eq_true, if_false, hi2, hk1, hk2]
    exact ⟨_, rfl, _, _, _, rfl⟩
  obtain ⟨p'', h4, e, new, r, h5⟩ := he
  refine ⟨p', p'', h1, h4, ?_⟩
  have hne : q ≠ u := fun h => hu' (h ▸ hq)
  rw [h5]
  exact mem_free_subs.2 (Or.inl ⟨by simp [free], hne⟩)

/-- A bound whose activator is the quantity `eps`. -/
def exQA : Prob where
  states := [⟨"x", sym "u"⟩]
  controls := ["u"]
  constants := ["c"]
  quantities := [⟨"eps", 2 * sym "c", ["c"]⟩]
  path := [⟨sym "u", some (-1), some 1, some (sym "eps"), .epstrig⟩]
  sympified := true

example : "eps" ∈ exQA.quantities.map Quantity.name ∧
    exQA.path.find? (fun c => c.method = .epstrig) = some ⟨sym "u", some (-1), some 1, some (sym "eps"), .epstrig⟩ ∧
    (applyQuantities exQA >>= epsTrig).map (fun p : Prob => decide ("eps" ∈ p.costPath.free)) = .ok true := by decide +kernel

/-- Cyclic definitions are outside the property: symbols stay. -/
example : (applyQuantities { exQ with quantities := [⟨"a", sym "b", ["b"]⟩, ⟨"b", sym "a", ["a"]⟩] }).map
    (fun p => p.states.map Dyn.eom) = .ok [sym "b" * sym "b"] := by decide +kernel

/-! ### C26 -/

/-- `RASHS` removes every switch symbol from the problem, replacing it by its switching function. -/
theorem C26_eliminated (p : Prob) (hs : p.sympified = true) (ha : Acyclic (defsS p.switches)) :
    ∃ p' f, rashs p = .ok p' ∧ p'.dropTables = p.dropTables.mapEqs f ∧ Eliminates (defsS p.switches) f := by
  obtain ⟨r, hr⟩ := ha
  obtain ⟨f, h1, h2⟩ := rashsLoop_ok (defs := defsS p.switches) (r := r) p (TableOk.refl hr) p.switches.length
    (by simp [defsS])
  refine ⟨_, f, ?_, h2, h1.eliminates (by simp [defsS])⟩
  rw [rashs, hs]
  rfl

/-- The sigmoid of one condition tends to 1 or 0. -/
theorem tendsto_sigmoid {c : ℝ} (hc : c ≠ 0) :
    Tendsto (fun τ : ℝ => 1 / (1 + Real.exp (c / τ))) (𝓝[>] 0) (𝓝 (if c < 0 then 1 else 0)) := by
  have hinv : Tendsto (fun τ : ℝ => τ⁻¹) (𝓝[>] 0) atTop := tendsto_inv_nhdsGT_zero
  rcases lt_or_gt_of_ne hc with h | h
  · rw [if_pos h]
    have h1 : Tendsto (fun τ : ℝ => c / τ) (𝓝[>] 0) atBot := by
      simpa [div_eq_mul_inv] using hinv.const_mul_atTop_of_neg h
    have h2 : Tendsto (fun τ : ℝ => 1 + Real.exp (c / τ)) (𝓝[>] 0) (𝓝 (1 + 0)) :=
      tendsto_const_nhds.add (Real.tendsto_exp_atBot.comp h1)
    have h3 := h2.inv₀ (by norm_num)
    simpa [one_div] using h3
  · rw [if_neg (not_lt.2 h.le)]
    have h1 : Tendsto (fun τ : ℝ => c / τ) (𝓝[>] 0) atTop := by
      simpa [div_eq_mul_inv] using hinv.const_mul_atTop h
    have h2 : Tendsto (fun τ : ℝ => 1 + Real.exp (c / τ)) (𝓝[>] 0) atTop :=
      tendsto_atTop_add_const_left _ _ (Real.tendsto_exp_atTop.comp h1)
    have h3 := h2.inv_tendsto_atTop
    simp only [one_div]
    exact h3

section
variable {U : Name → Nat → ℝ → ℝ} {ρ : Name → ℝ} {tol : Name}

theorem eval_update_of_not_mem {e : Expr} (h : tol ∉ e.free) (τ : ℝ) :
    eval (real U) (Function.update ρ tol τ) e = eval (real U) ρ e := by
  apply eval_congr
  intro s hs
  rw [Function.update_of_ne]
  rintro rfl
  exact h hs

theorem tendsto_mult (conds : List Expr) (hf : ∀ c ∈ conds, tol ∉ c.free) (hz : ∀ c ∈ conds, eval (real U) ρ c ≠ 0) :
    Tendsto (fun τ : ℝ => eval (real U) (Function.update ρ tol τ) (rashsMult (sym tol) conds)) (𝓝[>] 0)
      (𝓝 (satisfied (eval (real U) ρ) conds : ℝ)) := by
  have gen : ∀ (conds : List Expr) (acc : Expr) (l : ℝ), (∀ c ∈ conds, tol ∉ c.free) →
      (∀ c ∈ conds, eval (real U) ρ c ≠ 0) →
      Tendsto (fun τ : ℝ => eval (real U) (Function.update ρ tol τ) acc) (𝓝[>] 0) (𝓝 l) →
      Tendsto (fun τ : ℝ => eval (real U) (Function.update ρ tol τ)
        (conds.foldl (fun acc c => acc + 1 / (1 + fn .exp (c / sym tol))) acc)) (𝓝[>] 0)
        (𝓝 (l + satisfied (eval (real U) ρ) conds)) := by
    intro conds
    induction conds with
    | nil => intro acc l _ _ h; simpa [satisfied] using h
    | cons c cs ih =>
      intro acc l h1 h2 h
      have hc := tendsto_sigmoid (h2 c (by simp))
      have step : Tendsto (fun τ : ℝ => eval (real U) (Function.update ρ tol τ)
          (acc + 1 / (1 + fn .exp (c / sym tol)))) (𝓝[>] 0)
          (𝓝 (l + if eval (real U) ρ c < 0 then 1 else 0)) := by
        refine (h.add hc).congr fun τ => ?_
        have e1 := eval_update_of_not_mem (U := U) (ρ := ρ) (h1 c (by simp)) τ
        have e2 : eval (real U) (Function.update ρ tol τ) (fn .exp (c / sym tol)) =
            Real.exp (eval (real U) ρ c / τ) := by
          change Real.exp (eval (real U) (Function.update ρ tol τ) (c / sym tol)) = _
          rw [eval_div, e1]
          simp [eval]
        simp only [eval_add, eval_div, eval_one, e2]
      have := ih _ _ (fun c hc => h1 c (by simp [hc])) (fun c hc => h2 c (by simp [hc])) step
      simp only [List.foldl_cons]
      convert this using 2
      simp only [satisfied, List.countP_cons]
      by_cases hneg : eval (real U) ρ c < 0
      · simp [hneg]; ring
      · simp [hneg]
  have := gen conds 0 0 hf hz (by simp)
  simpa [rashsMult] using this

/-- The switching function tends to the sum of the functions weighted by the *number* of their conditions that hold. -/
theorem tendsto_switch (s : Switch) (ht : s.tol = sym tol) (hf : ∀ f ∈ s.functions, tol ∉ f.free)
    (hc : ∀ cs ∈ s.conditions, ∀ c ∈ cs, tol ∉ c.free ∧ eval (real U) ρ c ≠ 0) :
    Tendsto (fun τ : ℝ => eval (real U) (Function.update ρ tol τ) s.sympify.symFunc) (𝓝[>] 0)
      (𝓝 ((s.functions.zip s.conditions).map fun fc =>
        (satisfied (eval (real U) ρ) fc.2 : ℝ) * eval (real U) ρ fc.1).sum) := by
  have gen : ∀ (l : List (Expr × List Expr)) (acc : Expr) (a : ℝ),
      (∀ fc ∈ l, tol ∉ fc.1.free ∧ ∀ c ∈ fc.2, tol ∉ c.free ∧ eval (real U) ρ c ≠ 0) →
      Tendsto (fun τ : ℝ => eval (real U) (Function.update ρ tol τ) acc) (𝓝[>] 0) (𝓝 a) →
      Tendsto (fun τ : ℝ => eval (real U) (Function.update ρ tol τ)
        (l.foldl (fun acc fc => acc + rashsMult (sym tol) fc.2 * fc.1) acc)) (𝓝[>] 0)
        (𝓝 (a + (l.map fun fc => (satisfied (eval (real U) ρ) fc.2 : ℝ) * eval (real U) ρ fc.1).sum)) := by
    intro l
    induction l with
    | nil => intro acc a _ h; simpa using h
    | cons fc l ih =>
      intro acc a hl h
      have h1 := tendsto_mult (U := U) (ρ := ρ) fc.2 (fun c hc => ((hl fc (by simp)).2 c hc).1)
        (fun c hc => ((hl fc (by simp)).2 c hc).2)
      have h2 : Tendsto (fun τ : ℝ => eval (real U) (Function.update ρ tol τ) fc.1) (𝓝[>] 0)
          (𝓝 (eval (real U) ρ fc.1)) :=
        tendsto_const_nhds.congr fun τ => (eval_update_of_not_mem (hl fc (by simp)).1 τ).symm
      have := ih (acc + rashsMult (sym tol) fc.2 * fc.1) _ (fun x hx => hl x (by simp [hx])) (h.add (h1.mul h2))
      simpa [add_assoc] using this
  have := gen (s.functions.zip s.conditions) 0 0 (fun fc hfc => by
    obtain ⟨h1, h2⟩ := List.of_mem_zip hfc
    exact ⟨hf _ h1, hc _ h2⟩) (by simp)
  simpa [Switch.sympify, rashsFunc, ht] using this

end

/-- The property as a user states it: the switch tends to the function whose conditions all hold, when the conditions
of every other function all fail. -/
def SwitchSelects (s : Switch) : Prop :=
  ∀ (U : Name → Nat → ℝ → ℝ) (ρ : Name → ℝ) (tol : Name) (i : Nat) (f : Expr) (cs : List Expr), s.tol = sym tol →
    (∀ f ∈ s.functions, tol ∉ f.free) → (∀ cs ∈ s.conditions, ∀ c ∈ cs, tol ∉ c.free) →
    (s.functions.zip s.conditions)[i]? = some (f, cs) → (∀ c ∈ cs, eval (real U) ρ c < 0) →
    (∀ j f' cs', j ≠ i → (s.functions.zip s.conditions)[j]? = some (f', cs') → ∀ c ∈ cs', 0 < eval (real U) ρ c) →
    (∀ cs ∈ s.conditions, ∀ c ∈ cs, eval (real U) ρ c ≠ 0) →
    Tendsto (fun τ : ℝ => eval (real U) (Function.update ρ tol τ) s.sympify.symFunc) (𝓝[>] 0)
      (𝓝 (eval (real U) ρ f))

/-- A sum with one non-zero entry. -/
theorem sum_single {α : Type _} (w : α → ℝ) : ∀ (l : List α) (i : Nat) (a : α), l[i]? = some a →
    (∀ j b, j ≠ i → l[j]? = some b → w b = 0) → (l.map w).sum = w a
  | [], i, a, h, _ => by simp at h
  | x :: l, 0, a, h, h2 => by
    simp only [List.getElem?_cons_zero, Option.some.injEq] at h
    subst h
    have : (l.map w).sum = 0 := by
      apply List.sum_eq_zero
      intro y hy
      obtain ⟨b, hb, rfl⟩ := List.mem_map.1 hy
      obtain ⟨k, hk, e⟩ := List.mem_iff_getElem.1 hb
      exact h2 (k + 1) b (by omega) (by simp [e ▸ List.getElem?_eq_getElem hk])
    simp [this]
  | x :: l, i + 1, a, h, h2 => by
    have h0 : w x = 0 := h2 0 x (by omega) rfl
    have := sum_single w l i a (by simpa using h) fun j b hj hb => h2 (j + 1) b (by omega) (by simpa using hb)
    simp [h0, this]

/-- It holds when every function has exactly one condition (the general property fails, see `C26_violated`). -/
theorem C26_selects_partial (s : Switch) (h1 : ∀ cs ∈ s.conditions, cs.length = 1) : SwitchSelects s := by
  intro U ρ tol i f cs ht hf hc hi hpos hneg hz
  have := tendsto_switch (U := U) (ρ := ρ) s ht hf fun cs hcs c hcc => ⟨hc cs hcs c hcc, hz cs hcs c hcc⟩
  rw [sum_single _ _ i (f, cs) hi] at this
  · have hl := h1 cs (List.of_mem_zip (List.mem_of_getElem? hi)).2
    obtain ⟨c, rfl⟩ := List.length_eq_one_iff.1 hl
    have hc0 := hpos c (by simp)
    simpa [satisfied, hc0] using this
  · rintro j ⟨f', cs'⟩ hj hb
    have := hneg j f' cs' hj hb
    have h0 : satisfied (eval (real U) ρ) cs' = 0 := by
      rw [satisfied, List.countP_eq_zero]
      intro c hc
      simp [(this c hc).le]
    simp [h0]

/-- With `k` conditions on the one active function, all of them holding, the switch tends to `k` times the function:
the conditions are added where they should be multiplied. -/
theorem C26_violated (f : Expr) (cs : List Expr) (name tol : Name) (hk : 2 ≤ cs.length) (hf : tol ∉ f.free)
    (hcf : ∀ c ∈ cs, tol ∉ c.free) (U : Name → Nat → ℝ → ℝ) (ρ : Name → ℝ) (hv : eval (real U) ρ f ≠ 0)
    (hneg : ∀ c ∈ cs, eval (real U) ρ c < 0) : ¬ SwitchSelects ⟨name, [f], [cs], sym tol, 0⟩ := by
  intro h
  set s : Switch := ⟨name, [f], [cs], sym tol, 0⟩
  have h1 := h U ρ tol 0 f cs rfl (by simpa [s] using hf) (by simpa [s] using hcf) rfl hneg
    (by
      intro j f' cs' hj hb
      match j, hj with
      | j + 1, _ => simp [s] at hb)
    (by simpa [s] using fun c hc => (hneg c hc).ne)
  have h2 := tendsto_switch (U := U) (ρ := ρ) (tol := tol) s rfl (by simpa [s] using hf)
    (by simpa [s] using fun c hc => ⟨hcf c hc, (hneg c hc).ne⟩)
  have e := tendsto_nhds_unique h1 h2
  have hcount : satisfied (eval (real U) ρ) cs = cs.length := by
    rw [satisfied, List.countP_eq_length]
    intro c hc
    simp [hneg c hc]
  simp only [s, List.zip_cons_cons, List.zip_nil_right, List.map_cons, List.map_nil, List.sum_cons, List.sum_nil,
    add_zero, hcount] at e
  have : (1 - (cs.length : ℝ)) * eval (real U) ρ f = 0 := by linarith
  rcases mul_eq_zero.1 this with h3 | h3
  · have : (2 : ℝ) ≤ cs.length := by exact_mod_cast hk
    linarith
  · exact hv h3

/-- Two conditions on one function: the switch tends to twice the function. -/
example : ¬ SwitchSelects ⟨"s", [sym "v"], [[sym "a", sym "b"]], sym "tol", 0⟩ :=
  C26_violated (sym "v") [sym "a", sym "b"] "s" "tol" (by simp) (by decide) (by decide) (fun _ _ x => x)
    (fun s => if s = "v" then 1 else -1) (by norm_num [eval]) (by simp [eval])

/-- A state driven by a two-phase switch; the switch symbol is gone and nothing else moved. -/
example : (rashs { exQ with
      states := [⟨"x", sym "sw" * 3⟩]
      switches := [Switch.sympify ⟨"sw", [sym "f", sym "g"], [[sym "c"], [-sym "c"]], sym "tol", 0⟩] }).map
    (fun p => p.states.map fun d => d.eom.free) = .ok [["c", "tol", "f", "c", "tol", "g"]] := by decide +kernel

end Beluga.Sym
