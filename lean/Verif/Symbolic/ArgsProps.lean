import Verif.Symbolic.ArgsLemmas
import Verif.Symbolic.Props1

/-!
# Tables and user functions of quantities, switches and bounded controls (C87)

The full statement is `∀ S o p, indirectPy S o p = indirect S o p`: whatever a table or user function is applied to, the pipeline does
what it does with the functions of sympy.  It is false (`C87_violated_quantity`, `C87_violated_switch`, `C87_violated_control`); it
holds for problems in which no table or user function is applied to a symbol that the pipeline replaces (`C87_agrees_partial`).
-/

namespace Beluga.Sym

open Expr

set_option linter.unusedSimpArgs false

/-- The expressions that the user enters. -/
def Prob.entered (p : Prob) : List Expr :=
  { p with switches := [] }.visited ++ p.switches.flatMap (fun s => s.tol :: (s.functions ++ s.conditions.flatten)) ++
    p.path.filterMap Con.activator

/-- The symbols that the pipeline replaces: quantities, switches, and the controls bounded by 'epstrig'. -/
def Prob.replaced (p : Prob) : List Name :=
  p.quantities.map Quantity.name ++ p.switches.map Switch.name ++ epsControls p.path

/-! ### Nothing to refuse -/

/-- No symbol of `N` is in the argument of a table or user function, and the symbols that will be replaced are in `N`. -/
structure ArgsClear (N Q : List Name) (p : Prob) : Prop where
  vis : ∀ t ∈ p.visited, ∀ x ∈ N, x ∉ t.args
  act : ∀ c ∈ p.path, ∀ a, c.activator = some a → ∀ x ∈ N, x ∉ a.args
  eps : ∀ c ∈ p.path, c.method = .epstrig → ∀ u, c.expr = sym u → u ∈ N ∧ u ∉ Q
  qn : ∀ q ∈ p.quantities, q.name ∈ N ∧ q.name ∈ Q
  sn : ∀ s ∈ p.switches, s.name ∈ N

theorem subs_eq_sym {x u : Name} {e t : Expr} (h : Expr.subs x e t = sym u) : t = sym u ∨ t = sym x ∧ e = sym u := by
  cases t with
  | sym s =>
    rw [Expr.subs] at h
    split at h
    · next hs => exact Or.inr ⟨by rw [hs], h⟩
    · exact Or.inl h
  | num => cases h
  | pi => cases h
  | add => cases h
  | mul => cases h
  | inv => cases h
  | pow => cases h
  | fn => cases h

theorem vis_subsAll {N : List Name} {x : Name} {e : Expr} {p : Prob} (hp : ∀ t ∈ p.visited, ∀ y ∈ N, y ∉ t.args) (hx : x ∈ N)
    (he : ∀ y ∈ N, y ∉ e.args) : ∀ t ∈ (p.subsAll x e).visited, ∀ y ∈ N, y ∉ t.args := by
  intro t ht y hy hyt
  rw [visited_subsAll] at ht
  obtain ⟨t0, h0, rfl⟩ := List.mem_map.1 ht
  rcases args_subs (hp t0 h0 x hx) hyt with h | h
  · exact hp t0 h0 y hy h
  · exact he y hy h

theorem ArgsClear.subsAll {N Q : List Name} {x : Name} {e : Expr} {p : Prob} (h : ArgsClear N Q p) (hx : x ∈ N)
    (he : ∀ y ∈ N, y ∉ e.args) (hQ : x ∈ Q ∨ ∀ u, e ≠ sym u) : ArgsClear N Q (p.subsAll x e) := by
  refine ⟨vis_subsAll h.vis hx he, ?_, ?_, ?_, ?_⟩
  · intro c hc a ha
    obtain ⟨c0, h0, rfl⟩ := List.mem_map.1 hc
    exact h.act c0 h0 a ha
  · intro c hc hm u hu
    obtain ⟨c0, h0, rfl⟩ := List.mem_map.1 hc
    rcases subs_eq_sym hu with h1 | ⟨h1, h2⟩
    · exact h.eps c0 h0 hm u h1
    · rcases hQ with hQ | hQ
      · exact absurd hQ (h.eps c0 h0 hm x h1).2
      · exact absurd h2 (hQ u)
  · intro q hq
    obtain ⟨q0, h0, rfl⟩ := List.mem_map.1 hq
    exact h.qn q0 h0
  · intro s hs
    obtain ⟨s0, h0, rfl⟩ := List.mem_map.1 hs
    exact h.sn s0 h0

theorem quantity_visited {p : Prob} {q : Quantity} (h : q ∈ p.quantities) : q.expr ∈ p.visited := by
  simp only [Prob.visited, List.mem_append, List.mem_map]
  iterate 6 apply Or.inl
  exact Or.inr ⟨q, h, rfl⟩

theorem switch_visited {p : Prob} {s : Switch} (h : s ∈ p.switches) : s.symFunc ∈ p.visited := by
  simp only [Prob.visited, List.mem_append, List.mem_map]
  iterate 5 apply Or.inl
  exact Or.inr ⟨s, h, rfl⟩

theorem cost_visited (p : Prob) : p.costPath ∈ p.visited := by
  simp only [Prob.visited, List.mem_append, List.mem_map]
  iterate 7 apply Or.inl
  exact Or.inr (by simp)

theorem con_visited {p : Prob} {c : Con} (h : c ∈ p.initial ++ p.path ++ p.terminal) {t : Expr}
    (ht : t = c.expr ∨ c.lower = some t ∨ c.upper = some t) : t ∈ p.visited := by
  simp only [Prob.visited, List.mem_append, List.mem_map]
  iterate 8 apply Or.inl
  refine Or.inr (List.mem_flatMap.2 ⟨c, h, ?_⟩)
  rcases ht with rfl | ht | ht <;> simp [*]

/-- The expressions visited, kind by kind. -/
theorem visited_cases {p : Prob} {P : Expr → Prop} (h1 : ∀ d ∈ p.states, P d.eom) (h2 : ∀ d ∈ p.costates, P d.eom)
    (h3 : ∀ d ∈ p.coparameters, P d.eom) (h4 : ∀ c ∈ p.initial ++ p.path ++ p.terminal, P c.expr ∧ (∀ t, c.lower = some t → P t) ∧
      ∀ t, c.upper = some t → P t) (h5 : P p.costInitial) (h6 : P p.costPath) (h7 : P p.costTerminal)
    (h8 : ∀ q ∈ p.quantities, P q.expr) (h9 : ∀ s ∈ p.switches, P s.symFunc) (h10 : ∀ t, p.hamiltonian = some t → P t)
    (h11 : ∀ d ∈ p.quads, P d.eom) (h12 : ∀ t ∈ p.symmetries.flatten, P t) (h13 : ∀ c ∈ p.coms, P c.2)
    (h14 : ∀ c ∈ p.units, P c.2) : ∀ t ∈ p.visited, P t := by
  intro t ht
  simp only [Prob.visited, List.mem_append, List.mem_map] at ht
  rcases ht with ((((((((((⟨d, hd, rfl⟩ | ⟨d, hd, rfl⟩) | ⟨d, hd, rfl⟩) | hd) | hd) | ⟨d, hd, rfl⟩) | ⟨d, hd, rfl⟩) | hd) |
    ⟨d, hd, rfl⟩) | hd) | ⟨d, hd, rfl⟩) | ⟨d, hd, rfl⟩
  · exact h1 d hd
  · exact h2 d hd
  · exact h3 d hd
  · obtain ⟨c, hc, ht⟩ := List.mem_flatMap.1 hd
    simp only [List.mem_cons, List.mem_append, Option.mem_toList] at ht
    obtain ⟨k1, k2, k3⟩ := h4 c hc
    rcases ht with rfl | ht | ht
    · exact k1
    · exact k2 t ht
    · exact k3 t ht
  · simp only [List.mem_cons, List.not_mem_nil, or_false] at hd
    rcases hd with rfl | rfl | rfl
    · exact h5
    · exact h6
    · exact h7
  · exact h8 d hd
  · exact h9 d hd
  · simp only [Option.mem_toList] at hd
    exact h10 t hd
  · exact h11 d hd
  · exact h12 t hd
  · exact h13 d hd
  · exact h14 d hd

theorem mergeRowPy_clear {N : List Name} {i : Nat} {qs : List Quantity} (h : ∀ q ∈ qs, q.name ∈ N ∧ ∀ x ∈ N, x ∉ q.expr.args) :
    ∀ n, mergeRowPy i qs n = .ok (mergeRow i qs n) ∧ ∀ q ∈ mergeRow i qs n, q.name ∈ N ∧ ∀ x ∈ N, x ∉ q.expr.args
  | 0 => ⟨rfl, h⟩
  | j + 1 => by
    obtain ⟨e1, k1⟩ := mergeRowPy_clear h j
    rw [mergeRowPy, e1, mergeRow]
    generalize mergeRow i qs j = qs1 at k1
    change (match qs1[i]?, qs1[j]? with
        | some qi, some qj =>
          if qi.name ∈ qj.cached then
            if blocked qi.name qi.expr qj.expr then .error .typeError else .ok (qs1.set j (qj.subs qi.name qi.expr))
          else .ok qs1
        | _, _ => .ok qs1 : Py (List Quantity)) = _ ∧ _
    cases hi : qs1[i]? with
    | none => exact ⟨rfl, k1⟩
    | some qi =>
      cases hj : qs1[j]? with
      | none => exact ⟨rfl, k1⟩
      | some qj =>
        simp only []
        obtain ⟨ni, ai⟩ := k1 qi (List.mem_of_getElem? hi)
        obtain ⟨nj, aj⟩ := k1 qj (List.mem_of_getElem? hj)
        by_cases hc : qi.name ∈ qj.cached
        · rw [if_pos hc, if_pos hc, if_neg (by rw [blocked_iff]; exact fun hb => aj _ ni hb.2)]
          refine ⟨rfl, fun q hq => ?_⟩
          rcases List.mem_or_eq_of_mem_set hq with hq | rfl
          · exact k1 q hq
          · refine ⟨nj, fun x hx hxa => ?_⟩
            rcases args_subs (aj _ ni) hxa with h' | h'
            · exact aj x hx h'
            · exact ai x hx h'
        · rw [if_neg hc, if_neg hc]
          exact ⟨rfl, k1⟩

theorem mergeRowsPy_clear {N : List Name} {n : Nat} {qs : List Quantity} (h : ∀ q ∈ qs, q.name ∈ N ∧ ∀ x ∈ N, x ∉ q.expr.args) :
    ∀ i, mergeRowsPy n qs i = .ok (mergeRows n qs i) ∧ ∀ q ∈ mergeRows n qs i, q.name ∈ N ∧ ∀ x ∈ N, x ∉ q.expr.args
  | 0 => ⟨rfl, h⟩
  | i + 1 => by
    obtain ⟨e1, k1⟩ := mergeRowsPy_clear h i
    rw [mergeRowsPy, e1, mergeRows]
    exact mergeRowPy_clear k1 n

theorem mergeRow_names (i : Nat) (qs : List Quantity) : ∀ n, (mergeRow i qs n).map Quantity.name = qs.map Quantity.name
  | 0 => rfl
  | j + 1 => by
    rw [mergeRow, ← mergeRow_names i qs j]
    generalize mergeRow i qs j = qs1
    cases hi : qs1[i]? with
    | none => rfl
    | some qi =>
      cases hj : qs1[j]? with
      | none => rfl
      | some qj =>
        simp only []
        split
        · rw [List.map_set]
          exact List.set_eq_self_of (by rw [List.getElem?_map, hj]; rfl)
        · rfl

theorem mergeRows_names (n : Nat) (qs : List Quantity) : ∀ i, (mergeRows n qs i).map Quantity.name = qs.map Quantity.name
  | 0 => rfl
  | i + 1 => by rw [mergeRows, mergeRow_names, mergeRows_names n qs i]

theorem elimLoopPy_clear {N Q : List Name} {p : Prob} (h : ArgsClear N Q p) :
    ∀ k, elimLoopPy p k = .ok (elimLoop p k) ∧ ArgsClear N Q (elimLoop p k)
  | 0 => ⟨rfl, h⟩
  | k + 1 => by
    obtain ⟨e1, k1⟩ := elimLoopPy_clear h k
    rw [elimLoopPy, e1, elimLoop]
    generalize elimLoop p k = p1 at k1
    change (match p1.quantities[k]? with | some q => p1.subsAllPy q.name q.expr | none => .ok p1 : Py Prob) = _ ∧ _
    cases hq : p1.quantities[k]? with
    | none => exact ⟨rfl, k1⟩
    | some q =>
      have hm := List.mem_of_getElem? hq
      obtain ⟨n1, n2⟩ := k1.qn q hm
      exact ⟨subsAllPy_of fun t ht => k1.vis t ht _ n1, k1.subsAll n1 (k1.vis _ (quantity_visited hm)) (Or.inl n2)⟩

theorem applyQuantitiesPy_clear {N Q : List Name} {p : Prob} (h : ArgsClear N Q p) :
    applyQuantitiesPy p = applyQuantities p ∧ ∀ p', applyQuantities p = .ok p' → ArgsClear N Q p' := by
  rw [applyQuantitiesPy, applyQuantities]
  by_cases hs : (!p.sympified) = true
  · rw [if_pos hs, if_pos hs]
    exact ⟨rfl, fun p' hp' => by cases hp'⟩
  · rw [if_neg hs, if_neg hs]
    obtain ⟨e1, k1⟩ := mergeRowsPy_clear (N := N) (n := p.quantities.length) (qs := p.quantities)
      (fun q hq => ⟨(h.qn q hq).1, h.vis _ (quantity_visited hq)⟩) p.quantities.length
    have hp : ArgsClear N Q { p with quantities := mergeRows p.quantities.length p.quantities p.quantities.length } := by
      refine ⟨?_, h.act, h.eps, ?_, h.sn⟩
      · intro t ht
        rcases mem_visited_dropQuantities ht with ht | ⟨q, hq, rfl⟩
        · refine h.vis t ?_
          have : ∀ t ∈ p.dropQuantities.visited, t ∈ p.visited := by
            intro t ht
            simp only [Prob.visited, Prob.dropQuantities, List.mem_append, List.map_nil, List.not_mem_nil, or_false] at ht ⊢
            by_cases hq : t ∈ p.quantities.map Quantity.expr
            · simp only [hq, or_true, true_or]
            · rw [or_iff_left (b := t ∈ p.quantities.map Quantity.expr) hq]
              exact ht
          exact this t ht
        · exact (k1 q hq).2
      · intro q hq
        have : q.name ∈ p.quantities.map Quantity.name := by
          rw [← mergeRows_names p.quantities.length p.quantities p.quantities.length]
          exact List.mem_map.2 ⟨q, hq, rfl⟩
        obtain ⟨q', hq', e⟩ := List.mem_map.1 this
        rw [← e]
        exact h.qn q' hq'
    obtain ⟨e2, k2⟩ := elimLoopPy_clear hp p.quantities.length
    refine ⟨?_, fun p' hp' => by cases hp'; exact k2⟩
    rw [e1]
    exact e2

theorem rashsLoopPy_clear {N : List Name} {p : Prob} (h : ∀ t ∈ p.visited, ∀ x ∈ N, x ∉ t.args) (hn : ∀ s ∈ p.switches, s.name ∈ N) :
    ∀ k, rashsLoopPy p k = .ok (rashsLoop p k) ∧ (∀ t ∈ (rashsLoop p k).visited, ∀ x ∈ N, x ∉ t.args) ∧
      ∀ s ∈ (rashsLoop p k).switches, s.name ∈ N
  | 0 => ⟨rfl, h, hn⟩
  | k + 1 => by
    obtain ⟨e1, k1, m1⟩ := rashsLoopPy_clear h hn k
    rw [rashsLoopPy, e1, rashsLoop]
    generalize rashsLoop p k = p1 at k1 m1
    change (match p1.switches[k]? with | some s => p1.subsAllPy s.name s.symFunc | none => .ok p1 : Py Prob) = _ ∧ _
    cases hq : p1.switches[k]? with
    | none => exact ⟨rfl, k1, m1⟩
    | some s =>
      have hm := List.mem_of_getElem? hq
      refine ⟨subsAllPy_of fun t ht => k1 t ht _ (m1 s hm), vis_subsAll k1 (m1 s hm) (k1 _ (switch_visited hm)), ?_⟩
      intro s' hs'
      obtain ⟨s0, h0, rfl⟩ := List.mem_map.1 hs'
      exact m1 s0 h0

theorem rashsPy_clear {N Q : List Name} {p : Prob} (h : ArgsClear N Q p) : rashsPy p = rashs p := by
  rw [rashsPy, rashs]
  split
  · rfl
  · exact (rashsLoopPy_clear h.vis h.sn _).1

theorem momentumShift_clear {N Q : List Name} {p p' : Prob} (h : ArgsClear N Q p) (hp : momentumShift p = .ok p') :
    ArgsClear N Q p' := by
  rw [momentumShift] at hp
  split at hp
  · cases hp
  · cases hp
    refine ⟨?_, h.act, h.eps, h.qn, h.sn⟩
    have hv : ∀ t, t ∈ p.visited → ∀ x ∈ N, x ∉ t.args := h.vis
    have h0 : ∀ x ∈ N, x ∉ (0 : Expr).args := fun x _ => by change x ∉ ([] : List Name); simp
    have h1 : ∀ x ∈ N, x ∉ (1 : Expr).args := fun x _ => by change x ∉ ([] : List Name); simp
    have hsy : ∀ t ∈ (p.symmetries.map fun f => f ++ [0]).flatten, ∀ x ∈ N, x ∉ t.args := by
      intro t ht
      obtain ⟨l, hl, ht⟩ := List.mem_flatten.1 ht
      obtain ⟨f, hf, rfl⟩ := List.mem_map.1 hl
      rcases List.mem_append.1 ht with ht | ht
      · refine hv t ?_
        simp only [Prob.visited, List.mem_append]
        exact Or.inl (Or.inl (Or.inr (List.mem_flatten.2 ⟨f, hf, ht⟩)))
      · rw [List.mem_singleton.1 ht]; exact h0
    refine visited_cases ?_ (fun d hd => hv _ ?_) (fun d hd => hv _ ?_) (fun c hc => ⟨hv _ (con_visited (p := p) hc (Or.inl rfl)),
      fun t ht => hv _ (con_visited (p := p) hc (Or.inr (Or.inl ht))), fun t ht => hv _ (con_visited (p := p) hc (Or.inr (Or.inr ht)))⟩)
      (hv _ ?_) (hv _ (cost_visited p)) (hv _ ?_) (fun q hq => hv _ (quantity_visited (p := p) hq)) (fun s hs => hv _ (switch_visited (p := p) hs))
      (fun t ht => hv _ ?_) (fun d hd => hv _ ?_) ?_ (fun c hc => hv _ ?_) (fun c hc => hv _ ?_)
    · intro d hd
      rcases List.mem_append.1 hd with hd | hd
      · exact hv _ (eom_visited hd)
      · rw [List.mem_singleton.1 hd]; exact h1
    · have := List.mem_map_of_mem (f := Dyn.eom) hd
      simp only [Prob.visited, List.mem_append]; simp only [this, true_or, or_true]
    · have := List.mem_map_of_mem (f := Dyn.eom) hd
      simp only [Prob.visited, List.mem_append]; simp only [this, true_or, or_true]
    · simp only [Prob.visited, List.mem_append, List.mem_cons, true_or, or_true]
    · simp only [Prob.visited, List.mem_append, List.mem_cons, true_or, or_true]
    · have : t ∈ p.hamiltonian.toList := by rw [Option.mem_toList]; exact ht
      simp only [Prob.visited, List.mem_append]; simp only [this, true_or, or_true]
    · have := List.mem_map_of_mem (f := Dyn.eom) hd
      simp only [Prob.visited, List.mem_append]; simp only [this, true_or, or_true]
    · intro t ht
      split at ht
      · rw [List.flatten_append] at ht
        rcases List.mem_append.1 ht with ht | ht
        · exact hsy t ht
        · simp only [List.flatten_cons, List.flatten_nil, List.append_nil, List.mem_append, List.mem_replicate,
            List.mem_singleton] at ht
          rcases ht with ⟨-, rfl⟩ | rfl
          · exact h0
          · exact h1
      · exact hsy t ht
    · have := List.mem_map_of_mem (f := Prod.snd) hc
      simp only [Prob.visited, List.mem_append]; simp only [this, true_or, or_true]
    · have := List.mem_map_of_mem (f := Prod.snd) hc
      simp only [Prob.visited, List.mem_append]; simp only [this, true_or, or_true]

/-- Fewer constraints and other costs. -/
theorem vis_cons {N : List Name} {p : Prob} (hv : ∀ t ∈ p.visited, ∀ x ∈ N, x ∉ t.args) {i pa te : List Con} {ci cp ct : Expr}
    (hi : ∀ c ∈ i, c ∈ p.initial) (hpa : ∀ c ∈ pa, c ∈ p.path) (hte : ∀ c ∈ te, c ∈ p.terminal) (hci : ∀ x ∈ N, x ∉ ci.args)
    (hcp : ∀ x ∈ N, x ∉ cp.args) (hct : ∀ x ∈ N, x ∉ ct.args) {us : List Name} {ch : List MapTag} :
    ∀ t ∈ { p with initial := i, path := pa, terminal := te, costInitial := ci, costPath := cp, costTerminal := ct,
                   controls := us, chain := ch }.visited, ∀ x ∈ N, x ∉ t.args := by
  refine visited_cases (fun d hd => hv _ (eom_visited (p := p) hd)) (fun d hd => hv _ ?_) (fun d hd => hv _ ?_) ?_ hci hcp hct
    (fun q hq => hv _ (quantity_visited (p := p) hq)) (fun s hs => hv _ (switch_visited (p := p) hs)) (fun t ht => hv _ ?_) (fun d hd => hv _ ?_)
    (fun t ht => hv _ ?_) (fun c hc => hv _ ?_) (fun c hc => hv _ ?_)
  · have := List.mem_map_of_mem (f := Dyn.eom) hd
    simp only [Prob.visited, List.mem_append]; simp only [this, true_or, or_true]
  · have := List.mem_map_of_mem (f := Dyn.eom) hd
    simp only [Prob.visited, List.mem_append]; simp only [this, true_or, or_true]
  · intro c hc
    have hc' : c ∈ p.initial ++ p.path ++ p.terminal := by
      simp only [List.mem_append] at hc ⊢
      exact hc.imp (Or.imp (hi c) (hpa c)) (hte c)
    exact ⟨hv _ (con_visited (p := p) hc' (Or.inl rfl)), fun t ht => hv _ (con_visited (p := p) hc' (Or.inr (Or.inl ht))),
      fun t ht => hv _ (con_visited (p := p) hc' (Or.inr (Or.inr ht)))⟩
  · have : t ∈ p.hamiltonian.toList := by rw [Option.mem_toList]; exact ht
    simp only [Prob.visited, List.mem_append]; simp only [this, true_or, or_true]
  · have := List.mem_map_of_mem (f := Dyn.eom) hd
    simp only [Prob.visited, List.mem_append]; simp only [this, true_or, or_true]
  · have : t ∈ p.symmetries.flatten := ht
    simp only [Prob.visited, List.mem_append]; simp only [this, true_or, or_true]
  · have := List.mem_map_of_mem (f := Prod.snd) hc
    simp only [Prob.visited, List.mem_append]; simp only [this, true_or, or_true]
  · have := List.mem_map_of_mem (f := Prod.snd) hc
    simp only [Prob.visited, List.mem_append]; simp only [this, true_or, or_true]

theorem args_add (a b : Expr) : (a + b).args = a.args ++ b.args := rfl
theorem args_mul (a b : Expr) : (a * b).args = a.args ++ b.args := rfl
theorem args_div (a b : Expr) : (a / b).args = a.args ++ b.args := rfl
theorem args_neg (a : Expr) : (-a).args = a.args := rfl
theorem args_sub (a b : Expr) : (a - b).args = a.args ++ b.args := rfl
theorem args_nat (n : Nat) [n.AtLeastTwo] : (OfNat.ofNat n : Expr).args = [] := rfl
theorem args_one : (1 : Expr).args = [] := rfl

theorem args_utmTerm {x : Name} {a e lo hi : Expr} (ha : x ∉ a.args) (he : x ∉ e.args) (hlo : x ∉ lo.args) (hhi : x ∉ hi.args) :
    x ∉ (utmTerm a e lo hi).args := by
  have h1 : (utmTerm a e lo hi).args = a.args ++ ([] ++ ((([] ++ []) ++ (([] ++ e.args) ++ hi.args ++ lo.args)) ++
    (hi.args ++ lo.args)) ++ []) := rfl
  rw [h1]
  simp [ha, he, hlo, hhi]

theorem utm_clear {N Q : List Name} {p p' : Prob} (h : ArgsClear N Q p) (hp : utm p = .ok p') : ArgsClear N Q p' := by
  rw [utm] at hp
  split at hp
  · cases hp
  · split at hp
    · cases hp
    · next loc i hf =>
      split at hp
      · cases hp
      · next c hc =>
        split at hp
        · next a lo hi ha hlo hhi =>
          split at hp
          · next hk =>
            cases hp
            obtain ⟨k, -, hk⟩ := List.any_eq_true.1 hk
            have hk : a = sym k := by simpa using hk
            have hcm : c ∈ p.initial ++ p.path ++ p.terminal := by
              have := List.mem_of_getElem? hc
              rcases loc with _ | _ | loc <;> simp only [Prob.conList] at this <;> simp [this]
            have ht : ∀ x ∈ N, x ∉ (utmTerm a c.expr lo hi).args := fun x hx =>
              args_utmTerm (by rw [hk]; simp [Expr.args]) (h.vis _ (con_visited hcm (Or.inl rfl)) x hx)
                (h.vis _ (con_visited hcm (Or.inr (Or.inl hlo))) x hx) (h.vis _ (con_visited hcm (Or.inr (Or.inr hhi))) x hx)
            have hadd : ∀ t, t ∈ p.visited → ∀ b : Prop, [Decidable b] → ∀ x ∈ N, x ∉ (if b then t + utmTerm a c.expr lo hi else t).args := by
              intro t htv b _ x hx
              split
              · rw [args_add, List.mem_append, not_or]
                exact ⟨h.vis t htv x hx, ht x hx⟩
              · exact h.vis t htv x hx
            have hsub : ∀ (l : List Con) (b : Prop) [Decidable b], ∀ c ∈ (if b then l.eraseIdx i else l), c ∈ l := by
              intro l b _ c hc
              split at hc
              · exact List.mem_of_mem_eraseIdx hc
              · exact hc
            refine ⟨?_, fun c hc => h.act c (hsub _ _ c hc), fun c hc => h.eps c (hsub _ _ c hc), h.qn, h.sn⟩
            exact vis_cons h.vis (hsub _ _) (hsub _ _) (hsub _ _)
              (hadd _ (by simp only [Prob.visited, List.mem_append, List.mem_cons, true_or, or_true]) _)
              (hadd _ (by simp only [Prob.visited, List.mem_append, List.mem_cons, true_or, or_true]) _)
              (hadd _ (by simp only [Prob.visited, List.mem_append, List.mem_cons, true_or, or_true]) _)
          · cases hp
        · cases hp

theorem epsTrigPy_clear {N Q : List Name} {p : Prob} (h : ArgsClear N Q p) :
    epsTrigPy p = epsTrig p ∧ ∀ p', epsTrig p = .ok p' → ArgsClear N Q p' := by
  have hno : ∀ e : PyErr, (.error e : Py Prob) = .error e ∧ ∀ p', (.error e : Py Prob) = .ok p' → ArgsClear N Q p' := fun e =>
    ⟨rfl, fun p' hp' => by cases hp'⟩
  rw [epsTrigPy, epsTrig]
  by_cases hs : (!p.sympified) = true
  · rw [if_pos hs, if_pos hs]; exact hno _
  · rw [if_neg hs, if_neg hs]
    cases hi : p.path.findIdx? fun c => c.method = .epstrig with
    | none => exact hno _
    | some i =>
      cases hc : p.path[i]? with
      | none => simp only [hc]; exact ⟨trivial, (hno .runtimeWarning).2⟩
      | some c =>
        cases hk : p.controls.findIdx? fun u => c.expr = sym u with
        | none => simp only [hc, hk]; exact ⟨trivial, (hno .notImplementedError).2⟩
        | some k =>
          simp only [hc, hk]
          rcases h1 : p.controls[k]? with _ | u
          · exact hno _
          rcases h2 : c.activator with _ | a
          · exact hno _
          rcases h3 : c.lower with _ | lo
          · exact hno _
          rcases h4 : c.upper with _ | hi'
          · exact hno _
          · simp only []
            have hcm : c ∈ p.path := List.mem_of_getElem? hc
            have hcm' : c ∈ p.initial ++ p.path ++ p.terminal := by simp [hcm]
            obtain ⟨c', hc', hmeth⟩ := findIdx?_some hi
            obtain ⟨u', hu', hcu⟩ := findIdx?_some hk
            have e1 : c' = c := by rw [hc] at hc'; exact (Option.some.inj hc').symm
            have e2 : u' = u := by rw [h1] at hu'; exact (Option.some.inj hu').symm
            subst e1 e2
            have hcu : c'.expr = sym u' := by simpa using hcu
            have hmeth : c'.method = .epstrig := by simpa using hmeth
            have hu := (h.eps c' hcm hmeth u' hcu).1
            have hlo := h.vis _ (con_visited hcm' (Or.inr (Or.inl h3)))
            have hhi := h.vis _ (con_visited hcm' (Or.inr (Or.inr h4)))
            have hsub : ∀ c ∈ p.path.eraseIdx i, c ∈ p.path := fun c hc => List.mem_of_mem_eraseIdx hc
            have hcost : ∀ x ∈ N, x ∉ (p.costPath + (-a) * fn .cos (sym ("_" ++ u' ++ "_trig"))).args := by
              intro x hx
              rw [args_add, args_mul, args_neg]
              simp only [List.mem_append, not_or]
              exact ⟨h.vis _ (cost_visited p) x hx, h.act c' hcm a h2 x hx, by simp [Expr.args]⟩
            have hp1 : ArgsClear N Q { p with
                path := p.path.eraseIdx i
                controls := p.controls.set k ("_" ++ u' ++ "_trig")
                costPath := p.costPath + (-a) * fn .cos (sym ("_" ++ u' ++ "_trig")) } := by
              refine ⟨?_, fun c hc => h.act c (hsub c hc), fun c hc => h.eps c (hsub c hc), h.qn, h.sn⟩
              exact vis_cons h.vis (fun _ h => h) hsub (fun _ h => h)
                (h.vis _ (by simp only [Prob.visited, List.mem_append, List.mem_cons, true_or, or_true])) hcost
                (h.vis _ (by simp only [Prob.visited, List.mem_append, List.mem_cons, true_or, or_true]))
            have he : ∀ y ∈ N, y ∉ ((hi' - lo) / 2 * fn .sin (sym ("_" ++ u' ++ "_trig")) + (hi' + lo) / 2).args := by
              intro y hy
              have e : ((hi' - lo) / 2 * fn .sin (sym ("_" ++ u' ++ "_trig")) + (hi' + lo) / 2).args =
                (((hi'.args ++ lo.args) ++ []) ++ []) ++ ((hi'.args ++ lo.args) ++ []) := rfl
              rw [e]
              simp [hlo y hy, hhi y hy]
            refine ⟨?_, fun p' hp' => ?_⟩
            · rw [subsAllPy_of fun t ht => hp1.vis t ht u' hu]
              rfl
            · cases hp'
              have := hp1.subsAll hu he (Or.inr fun v hv => by cases hv)
              exact ⟨this.vis, this.act, this.eps, this.qn, this.sn⟩

theorem runStepsPy_clear {S : Sympy} {N Q : List Name} : ∀ {steps : List Step} {p : Prob},
    (∀ s ∈ steps, s = .momentumShift ∨ s = .epsTrig ∨ s = .utm) → ArgsClear N Q p →
    runStepsPy S steps p = runSteps S steps p ∧ ∀ p', runSteps S steps p = .ok p' → ArgsClear N Q p'
  | [], p, _, h => ⟨rfl, fun p' hp' => by cases hp'; exact h⟩
  | s :: steps, p, hs, h => by
    have h1 : s.runPy S p = s.run S p ∧ ∀ p', s.run S p = .ok p' → ArgsClear N Q p' := by
      rcases hs s (by simp) with rfl | rfl | rfl
      · exact ⟨rfl, fun p' hp' => momentumShift_clear h hp'⟩
      · exact epsTrigPy_clear h
      · exact ⟨rfl, fun p' hp' => utm_clear h hp'⟩
    rw [runStepsPy, runSteps, List.foldlM_cons, List.foldlM_cons, h1.1]
    cases hr : s.run S p with
    | error e => exact ⟨rfl, fun p' hp' => by cases hp'⟩
    | ok q => exact runStepsPy_clear (fun t ht => hs t (by simp [ht])) (h1.2 q hr)

theorem runStepsPy_append (S : Sympy) (a b : List Step) (p : Prob) :
    runStepsPy S (a ++ b) p = (runStepsPy S a p >>= fun p => runStepsPy S b p) := by
  simp [runStepsPy, List.foldlM_append]

theorem runStepsPy_plain {S : Sympy} : ∀ {steps : List Step} (p : Prob), (∀ s ∈ steps, s ≠ .epsTrig ∧ s ≠ .rashs) →
    runStepsPy S steps p = runSteps S steps p
  | [], _, _ => rfl
  | s :: steps, p, h => by
    have h1 : s.runPy S p = s.run S p := by
      cases s with
      | epsTrig => exact absurd rfl (h _ (by simp)).1
      | rashs => exact absurd rfl (h _ (by simp)).2
      | _ => rfl
    rw [runStepsPy, runSteps, List.foldlM_cons, List.foldlM_cons, h1]
    cases s.run S p with
    | error e => rfl
    | ok q => exact runStepsPy_plain q fun t ht => h t (by simp [ht])

theorem args_rashsMult {x : Name} {tol : Expr} (ht : x ∉ tol.args) : ∀ (cs : List Expr) (e : Expr), x ∉ e.args → (∀ c ∈ cs, x ∉ c.args) →
    x ∉ (cs.foldl (fun acc c => acc + 1 / (1 + fn .exp (c / tol))) e).args
  | [], e, he, _ => he
  | c :: cs, e, he, hc => by
    rw [List.foldl_cons]
    refine args_rashsMult ht cs _ ?_ fun d hd => hc d (by simp [hd])
    have h1 : (e + 1 / (1 + fn .exp (c / tol))).args = e.args ++ ([] ++ ([] ++ (c.args ++ tol.args))) := rfl
    rw [h1]
    simp [he, hc c (by simp), ht]

theorem args_rashsFunc {x : Name} {tol : Expr} (ht : x ∉ tol.args) {fs : List Expr} {cs : List (List Expr)}
    (hf : ∀ f ∈ fs, x ∉ f.args) (hc : ∀ c ∈ cs.flatten, x ∉ c.args) : x ∉ (rashsFunc tol fs cs).args := by
  have key : ∀ (l : List (Expr × List Expr)) (e : Expr), x ∉ e.args → (∀ fc ∈ l, x ∉ fc.1.args ∧ ∀ c ∈ fc.2, x ∉ c.args) →
      x ∉ (l.foldl (fun acc fc => acc + rashsMult tol fc.2 * fc.1) e).args := by
    intro l
    induction l with
    | nil => exact fun e he _ => he
    | cons fc l ih =>
      intro e he hl
      rw [List.foldl_cons]
      refine ih _ ?_ fun d hd => hl d (by simp [hd])
      rw [args_add, args_mul]
      simp only [List.mem_append, not_or]
      exact ⟨he, args_rashsMult ht _ _ (by change x ∉ ([] : List Name); simp) (hl fc (by simp)).2, (hl fc (by simp)).1⟩
  refine key _ _ (by change x ∉ ([] : List Name); simp) fun fc hfc => ?_
  have := List.of_mem_zip (show (fc.1, fc.2) ∈ fs.zip cs from hfc)
  exact ⟨hf _ this.1, fun c hcc => hc c (List.mem_flatten.2 ⟨_, this.2, hcc⟩)⟩

theorem sympify_clear {p p' : Prob} (h : ∀ t ∈ p.entered, ∀ x ∈ p.replaced, x ∉ t.args)
    (hq : ∀ u ∈ epsControls p.path, u ∉ p.quantities.map Quantity.name) (hs : p.sympify = .ok p') :
    ArgsClear p.replaced (p.quantities.map Quantity.name) p' := by
  rw [Prob.sympify] at hs
  split at hs
  · cases hs
  · cases hs
    have hv : ∀ t ∈ { p with switches := [] }.visited, ∀ x ∈ p.replaced, x ∉ t.args := fun t ht => h t (by
      simp only [Prob.entered, List.mem_append]; exact Or.inl (Or.inl ht))
    refine ⟨?_, ?_, ?_, ?_, ?_⟩
    · refine visited_cases (fun d hd => hv _ ?_) (fun d hd => hv _ ?_) (fun d hd => hv _ ?_)
        (fun c hc => ⟨hv _ (con_visited (p := { p with switches := [] }) hc (Or.inl rfl)), fun t ht => hv _ (con_visited (p := { p with switches := [] }) hc (Or.inr (Or.inl ht))),
          fun t ht => hv _ (con_visited (p := { p with switches := [] }) hc (Or.inr (Or.inr ht)))⟩) (hv _ ?_) (hv _ ?_) (hv _ ?_) ?_ ?_ (fun t ht => hv _ ?_)
        (fun d hd => hv _ ?_) (fun t ht => hv _ ?_) (fun c hc => hv _ ?_) (fun c hc => hv _ ?_)
      · have := List.mem_map_of_mem (f := Dyn.eom) hd
        simp only [Prob.visited, List.mem_append]; simp only [this, true_or, or_true]
      · have := List.mem_map_of_mem (f := Dyn.eom) hd
        simp only [Prob.visited, List.mem_append]; simp only [this, true_or, or_true]
      · have := List.mem_map_of_mem (f := Dyn.eom) hd
        simp only [Prob.visited, List.mem_append]; simp only [this, true_or, or_true]
      · simp only [Prob.visited, List.mem_append, List.mem_cons, true_or, or_true]
      · simp only [Prob.visited, List.mem_append, List.mem_cons, true_or, or_true]
      · simp only [Prob.visited, List.mem_append, List.mem_cons, true_or, or_true]
      · intro q hq
        obtain ⟨q0, h0, rfl⟩ := List.mem_map.1 hq
        refine hv q0.expr ?_
        have := List.mem_map_of_mem (f := Quantity.expr) h0
        simp only [Prob.visited, List.mem_append]; simp only [this, true_or, or_true]
      · intro s hs x hx
        obtain ⟨s0, h0, rfl⟩ := List.mem_map.1 hs
        have he : ∀ t ∈ s0.tol :: (s0.functions ++ s0.conditions.flatten), x ∉ t.args := fun t ht => h t (by
          simp only [Prob.entered, List.mem_append]
          exact Or.inl (Or.inr (List.mem_flatMap.2 ⟨s0, h0, ht⟩))) x hx
        exact args_rashsFunc (he _ (by simp)) (fun f hf => he f (by simp [hf])) fun c hc => he c
          (List.mem_cons_of_mem _ (List.mem_append_right _ hc))
      · have : t ∈ p.hamiltonian.toList := by rw [Option.mem_toList]; exact ht
        simp only [Prob.visited, List.mem_append]; simp only [this, true_or, or_true]
      · have := List.mem_map_of_mem (f := Dyn.eom) hd
        simp only [Prob.visited, List.mem_append]; simp only [this, true_or, or_true]
      · have : t ∈ p.symmetries.flatten := ht
        simp only [Prob.visited, List.mem_append]; simp only [this, true_or, or_true]
      · have := List.mem_map_of_mem (f := Prod.snd) hc
        simp only [Prob.visited, List.mem_append]; simp only [this, true_or, or_true]
      · have := List.mem_map_of_mem (f := Prod.snd) hc
        simp only [Prob.visited, List.mem_append]; simp only [this, true_or, or_true]
    · intro c hc a ha
      refine h a ?_
      simp only [Prob.entered, List.mem_append]
      exact Or.inr (List.mem_filterMap.2 ⟨c, hc, ha⟩)
    · intro c hc hm u hu
      have := mem_epsControls.2 ⟨c, hc, hm, hu⟩
      refine ⟨?_, hq u this⟩
      simp only [Prob.replaced, List.mem_append]
      exact Or.inr this
    · intro q hq
      obtain ⟨q0, h0, rfl⟩ := List.mem_map.1 hq
      have : q0.name ∈ p.quantities.map Quantity.name := List.mem_map.2 ⟨q0, h0, rfl⟩
      refine ⟨?_, this⟩
      simp only [Prob.replaced, List.mem_append]
      exact Or.inl (Or.inl this)
    · intro s hs
      obtain ⟨s0, h0, rfl⟩ := List.mem_map.1 hs
      simp only [Prob.replaced, List.mem_append]
      exact Or.inl (Or.inr (List.mem_map.2 ⟨s0, h0, rfl⟩))

/-- **C87, agreement.** If no table or user function that the user enters is applied to a quantity, a switch or a control bounded by
'epstrig', and no quantity stands for such a control, then the pipeline that refuses to substitute in arguments does what the pipeline
with the substitution of sympy does. -/
theorem C87_agrees_partial (S : Sympy) (o : Opts) {p : Prob} (h : ∀ t ∈ p.entered, ∀ x ∈ p.replaced, x ∉ t.args)
    (hq : ∀ u ∈ epsControls p.path, u ∉ p.quantities.map Quantity.name) : indirectPy S o p = indirect S o p := by
  rw [indirectPy, indirect, preprocessPy, preprocess]
  cases h0 : p.sympify with
  | error e => rfl
  | ok p0 =>
    obtain ⟨e1, k1⟩ := applyQuantitiesPy_clear (sympify_clear h hq h0)
    change (applyQuantitiesPy p0 >>= _) = (applyQuantities p0 >>= _)
    rw [e1]
    cases h1 : applyQuantities p0 with
    | error e => rfl
    | ok p1 =>
      have k1 := k1 p1 h1
      change (indirectSteps o p1 >>= _) = (indirectSteps o p1 >>= _)
      cases h2 : indirectSteps o p1 with
      | error e => rfl
      | ok steps =>
        obtain ⟨ineq, ctl, hineq, hctl, rfl⟩ := indirectSteps_ok h2
        change runStepsPy S _ p1 = runSteps S _ p1
        simp only [List.append_assoc]
        rw [← List.append_assoc, runStepsPy_append, runSteps_append]
        have hfirst : ∀ s ∈ (if o.momentumShift then [Step.momentumShift] else []) ++ ineq, s = .momentumShift ∨ s = .epsTrig ∨ s = .utm := by
          intro s hs
          rcases List.mem_append.1 hs with hs | hs
          · split at hs
            · exact Or.inl (List.mem_singleton.1 hs)
            · simp at hs
          · exact Or.inr (ineqSteps_mem hineq s hs)
        obtain ⟨e2, k2⟩ := runStepsPy_clear (S := S) hfirst k1
        rw [e2]
        cases h3 : runSteps S ((if o.momentumShift then [Step.momentumShift] else []) ++ ineq) p1 with
        | error e => rfl
        | ok p2 =>
          have k2 := k2 p2 h3
          have hlast : ∀ q, runStepsPy S ([.dualize o.method, ctl] ++ ((if o.normalizeTime then [.normalizeTime] else []) ++ ([.squash] ++
              (if o.analyticalJacobian && o.controlMethod ≠ .algebraic then [.jacobians] else [])))) q = runSteps S ([.dualize o.method, ctl] ++
              ((if o.normalizeTime then [.normalizeTime] else []) ++ ([.squash] ++
              (if o.analyticalJacobian && o.controlMethod ≠ .algebraic then [.jacobians] else [])))) q := by
            intro q
            refine runStepsPy_plain q ?_
            intro s hs
            simp only [List.mem_append, List.mem_cons, List.not_mem_nil, or_false] at hs
            rcases hs with (rfl | rfl) | hs | rfl | hs
            · simp
            · rcases hctl with ⟨rfl, -⟩ | ⟨rfl, -⟩ <;> simp
            · split at hs
              · rw [List.mem_singleton.1 hs]; simp
              · simp at hs
            · simp
            · split at hs
              · rw [List.mem_singleton.1 hs]; simp
              · simp at hs
          change runStepsPy S _ p2 = runSteps S _ p2
          rw [runStepsPy_append, runSteps_append]
          have hr : runStepsPy S (if p1.switches.length > 0 then [Step.rashs] else []) p2 =
              runSteps S (if p1.switches.length > 0 then [Step.rashs] else []) p2 := by
            split
            · change (rashsPy p2 >>= _) = (rashs p2 >>= _)
              rw [rashsPy_clear k2]
              rfl
            · rfl
          rw [hr]
          cases runSteps S (if p1.switches.length > 0 then [Step.rashs] else []) p2 with
          | error e => rfl
          | ok p3 => exact hlast p3

/-- **C87, soundness of the model.** What the pipeline returns is what the pipeline with the substitution of sympy returns: every theorem
about a problem generated by `indirect` holds for the problems generated by `indirectPy`. -/
theorem C87_sound {S : Sympy} {o : Opts} {p p' : Prob} (h : indirectPy S o p = .ok p') : indirect S o p = .ok p' := by
  rw [indirectPy] at h
  obtain ⟨p1, h1, h⟩ := bind_ok h
  obtain ⟨steps, h2, h⟩ := bind_ok h
  rw [indirect, preprocessPy_ok h1]
  change (indirectSteps o p1 >>= _) = _
  rw [h2]
  exact runStepsPy_ok h

/-- The same for the direct method. -/
theorem C87_sound_direct {S : Sympy} {jac shift norm : Bool} {p p' : Prob} (h : directPy S jac shift norm p = .ok p') :
    (do let p ← preprocess p; let steps ← directSteps jac shift norm p; runSteps S steps p) = .ok p' := by
  rw [directPy] at h
  obtain ⟨p1, h1, h⟩ := bind_ok h
  obtain ⟨steps, h2, h⟩ := bind_ok h
  rw [preprocessPy_ok h1]
  change (directSteps jac shift norm p1 >>= _) = _
  rw [h2]
  exact runStepsPy_ok h

/-! ### What is refused -/

theorem applyQuantitiesPy_refuses {p : Prob} (hs : p.sympified = true) (ha : Acyclic (defsQ p.quantities)) {q : Name}
    (hq : q ∈ p.quantities.map Quantity.name) (ht : ∃ t ∈ p.visited, q ∈ t.args) : applyQuantitiesPy p = .error .typeError := by
  cases h : applyQuantitiesPy p with
  | error e => rw [applyQuantitiesPy_error hs h]
  | ok p' =>
    exfalso
    have hu := applyQuantitiesPy_ok h
    obtain ⟨r, hr⟩ := ha
    have hN : (defsQ p.quantities).map Prod.fst = p.quantities.map Quantity.name := by
      simp [defsQ, List.map_map, Function.comp_def]
    have h0 := mergeRows_ok p.quantities.length p.quantities (TableOk.refl hr) p.quantities.length
    obtain ⟨f, h1, h2⟩ := elimLoop_ok (defs := defsQ p.quantities) (r := r)
      { p with quantities := mergeRows p.quantities.length p.quantities p.quantities.length } h0 p.quantities.length
      (by simp [defsQ])
    have hs' : ¬ (!p.sympified) = true := by simp [hs]
    rw [applyQuantities, if_neg hs'] at hu
    have hu : p' = elimLoop { p with quantities := mergeRows p.quantities.length p.quantities p.quantities.length }
      p.quantities.length := by cases hu; rfl
    rw [← hu] at h1 h2
    have htake : ((defsQ p.quantities).map Prod.fst).take p.quantities.length = p.quantities.map Quantity.name := by
      rw [hN]; exact List.take_of_length_le (by simp)
    -- the argument is still there
    rw [applyQuantitiesPy, if_neg hs'] at h
    obtain ⟨qs, g1, g2⟩ := bind_ok h
    obtain ⟨e1, k1⟩ := mergeRowsPy_ok g1
    have k2 := (elimLoopPy_ok g2).2.visited q (by
      obtain ⟨t, ht, hqt⟩ := ht
      rcases mem_visited_dropQuantities ht with ht | ⟨Q, hQ, rfl⟩
      · refine ⟨t, ?_, hqt⟩
        have : ∀ (p : Prob) (qs : List Quantity) (t : Expr), t ∈ p.dropQuantities.visited → t ∈ { p with quantities := qs }.visited := by
          intro p qs t ht
          simp only [Prob.visited, Prob.dropQuantities, List.mem_append, List.map_nil, List.not_mem_nil, or_false] at ht ⊢
          by_cases hq : t ∈ qs.map Quantity.expr
          · simp only [hq, or_true, true_or]
          · rw [or_iff_left (b := t ∈ qs.map Quantity.expr) hq]
            exact ht
        exact this p qs t ht
      · obtain ⟨Q', hQ', hq'⟩ := k1 q ⟨Q, hQ, hqt⟩
        exact ⟨Q'.expr, quantity_visited (p := { p with quantities := qs }) hQ', hq'⟩)
    obtain ⟨t, ht, hqt⟩ := k2
    rcases mem_visited_dropQuantities ht with ht | ⟨Q, hQ, rfl⟩
    · rw [h2] at ht
      change t ∈ (p.dropQuantities.mapEqs f).visited at ht
      rw [visited_mapEqs] at ht
      obtain ⟨t0, -, rfl⟩ := List.mem_map.1 ht
      refine h1.gone t0 q (args_free hqt) ?_
      rw [htake]
      exact hq
    · refine h1.goneT (Q.name, Q.expr) (List.mem_map.2 ⟨Q, hQ, rfl⟩) q (args_free hqt) ?_
      rw [htake]
      exact hq

/-- **C87, violated for quantities.** A rate in which a table or user function is applied to a quantity: `solve` raises a `TypeError`,
whatever the method and the options. -/
theorem C87_violated_quantity (S : Sympy) {p : Prob} (ha : Acyclic (defsQ p.quantities)) {q : Name}
    (hq : q ∈ p.quantities.map Quantity.name) {d : Dyn} (hd : d ∈ p.states) (hqd : q ∈ d.eom.args) :
    (∀ o, indirectPy S o p = .error .typeError) ∧ ∀ jac shift norm, directPy S jac shift norm p = .error .typeError := by
  have hl : ¬ p.states.length < 1 := by have := List.length_pos_of_mem hd; omega
  have h1 : preprocessPy p = .error .typeError := by
    rw [preprocessPy, Prob.sympify, if_neg hl]
    refine applyQuantitiesPy_refuses (p := { p with
      sympified := true
      quantities := p.quantities.map Quantity.sympify
      switches := p.switches.map Switch.sympify }) (q := q) rfl ?_ ?_ ⟨d.eom, eom_visited hd, hqd⟩
    · have : defsQ (p.quantities.map Quantity.sympify) = defsQ p.quantities := by
        simp [defsQ, List.map_map, Function.comp_def, Quantity.sympify]
      change Acyclic (defsQ (p.quantities.map Quantity.sympify))
      rw [this]
      exact ha
    · simpa [List.map_map, Function.comp_def, Quantity.sympify] using hq
  refine ⟨fun o => ?_, fun jac shift norm => ?_⟩
  · rw [indirectPy, h1]
    rfl
  · rw [directPy, h1]
    rfl

/-! Switches -/

/-- An expression that is not a symbol, and stays so under substitution. -/
def IsSum : Expr → Prop
  | num _ => True
  | add _ _ => True
  | _ => False

theorem IsSum.subs {x : Name} {e : Expr} : ∀ {t : Expr}, IsSum t → IsSum (Expr.subs x e t)
  | num _, _ => trivial
  | add _ _, _ => trivial

theorem IsSum.ne {t : Expr} (h : IsSum t) (u : Name) : t ≠ sym u := by
  rintro rfl
  exact h

theorem isSum_rashsFunc (tol : Expr) (fs : List Expr) (cs : List (List Expr)) : IsSum (rashsFunc tol fs cs) := by
  have : ∀ (l : List (Expr × List Expr)) (e : Expr), IsSum e → IsSum (l.foldl (fun acc fc => acc + rashsMult tol fc.2 * fc.1) e) := by
    intro l
    induction l with
    | nil => exact fun e h => h
    | cons a l ih => exact fun e _ => ih _ trivial
  exact this _ _ trivial

/-- The switches have the names `ns`, and their functions are sums. -/
def SumSwitches (ns : List Name) (p : Prob) : Prop := p.switches.map Switch.name = ns ∧ ∀ s ∈ p.switches, IsSum s.symFunc

theorem SumSwitches.subsAll {ns : List Name} {p : Prob} (h : SumSwitches ns p) (x : Name) (e : Expr) : SumSwitches ns (p.subsAll x e) := by
  refine ⟨?_, ?_⟩
  · rw [← h.1]
    simp [Prob.subsAll, List.map_map, Function.comp_def, Switch.subs]
  · intro s hs
    obtain ⟨s0, h0, rfl⟩ := List.mem_map.1 hs
    exact (h.2 s0 h0).subs

theorem SumSwitches.rashsLoop {ns : List Name} {p : Prob} (h : SumSwitches ns p) : ∀ k, SumSwitches ns (rashsLoop p k)
  | 0 => h
  | k + 1 => by
    have ih := h.rashsLoop k
    rw [Sym.rashsLoop]
    generalize Sym.rashsLoop p k = p1 at ih
    cases p1.switches[k]? with
    | none => exact ih
    | some s => exact ih.subsAll _ _

theorem SumSwitches.elimLoop {ns : List Name} {p : Prob} (h : SumSwitches ns p) : ∀ k, SumSwitches ns (elimLoop p k)
  | 0 => h
  | k + 1 => by
    have ih := h.elimLoop k
    rw [Sym.elimLoop]
    generalize Sym.elimLoop p k = p1 at ih
    cases p1.quantities[k]? with
    | none => exact ih
    | some s => exact ih.subsAll _ _

/-- A switch in the argument of a table or user function in a rate: the regularisation does not succeed. -/
theorem rashsPy_refuses {ns : List Name} {p p' : Prob} (hn : SumSwitches ns p) {s : Name} (hs : s ∈ ns)
    (ht : ∃ d ∈ p.states, s ∈ d.eom.args) : rashsPy p ≠ .ok p' := by
  intro h
  rw [rashsPy] at h
  split at h
  · cases h
  · have key : ∀ k r, rashsLoopPy p k = .ok r → ∀ j < k, ns[j]? ≠ some s := by
      intro k
      induction k with
      | zero => intro r _ j hj; omega
      | succ k ih =>
        intro r hr j hj hsj
        rw [rashsLoopPy] at hr
        obtain ⟨p1, h1, hr⟩ := bind_ok hr
        by_cases hjk : j < k
        · exact ih p1 h1 j hjk hsj
        · have hjk : j = k := by omega
          subst hjk
          obtain ⟨e1, k1⟩ := rashsLoopPy_ok h1
          have hn1 : SumSwitches ns p1 := by rw [e1]; exact hn.rashsLoop j
          have : (p1.switches.map Switch.name)[j]? = some s := by rw [hn1.1]; exact hsj
          rw [List.getElem?_map] at this
          cases hw : p1.switches[j]? with
          | none => rw [hw] at this; cases this
          | some w =>
            rw [hw] at this
            have hws : w.name = s := Option.some.inj this
            simp only [hw] at hr
            obtain ⟨d, hd, hsd⟩ := k1.states s ht
            have := (subsAllPy_ok hr).2 d.eom (eom_visited hd)
            rw [hws] at this
            exact absurd (blocked_iff.2 ⟨(hn1.2 w (List.mem_of_getElem? hw)).ne s, hsd⟩) (by simp [this])
    obtain ⟨j, hj, e⟩ := List.getElem_of_mem hs
    refine key _ _ h j ?_ (by rw [List.getElem?_eq_getElem hj, e])
    rw [← hn.1] at hj
    simpa using hj

/-! The functors before the regularisation -/

theorem find?_of_findIdx? {α : Type _} {q : α → Bool} {l : List α} {i : Nat} {a : α} (h : l.findIdx? q = some i) (ha : l[i]? = some a) :
    l.find? q = some a := by
  rw [List.findIdx?_eq_some_iff_getElem] at h
  obtain ⟨hi, h1, h2⟩ := h
  rw [List.getElem?_eq_getElem hi] at ha
  cases ha
  rw [List.find?_eq_some_iff_getElem]
  exact ⟨h1, i, hi, rfl, fun j hj => by simpa using h2 j hj⟩

theorem epsTrigPy_inv {p p' : Prob} (h : epsTrigPy p = .ok p') : ∃ (c : Con) (u : Name) (e : Expr) (p1 p2 : Prob),
    p.path.find? (fun c => c.method = .epstrig) = some c ∧ c.expr = sym u ∧ IsSum e ∧ p1.states = p.states ∧ p1.switches = p.switches ∧
    p1.subsAllPy u e = .ok p2 ∧ p'.states = p2.states ∧ p'.switches = p2.switches := by
  rw [epsTrigPy] at h
  split at h
  · cases h
  · split at h
    · cases h
    · next i hi =>
      split at h
      · cases h
      · next c hc =>
        split at h
        · cases h
        · next k hk =>
          split at h
          · next u a lo hi' h1 h2 h3 h4 =>
            obtain ⟨p2, h5, h⟩ := bind_ok h
            cases h
            obtain ⟨u', hu', hcu⟩ := findIdx?_some hk
            rw [h1] at hu'
            cases hu'
            have hcu : c.expr = sym u := by simpa using hcu
            have hsum : IsSum ((hi' - lo) / 2 * fn .sin (sym ("_" ++ u ++ "_trig")) + (hi' + lo) / 2) := trivial
            exact ⟨c, u, _, { p with
              path := p.path.eraseIdx i
              controls := p.controls.set k ("_" ++ u ++ "_trig")
              costPath := p.costPath + (-a) * fn .cos (sym ("_" ++ u ++ "_trig")) }, p2, find?_of_findIdx? hi hc, hcu, hsum, rfl, rfl, h5,
              rfl, rfl⟩
          · cases h

/-- One functor of the front keeps the arguments in the rates, and the switches. -/
theorem front_keeps {S : Sympy} {s : Step} (hs : s = .momentumShift ∨ s = .epsTrig ∨ s = .utm) {p p' : Prob} (h : s.runPy S p = .ok p') :
    (∀ y, (∃ d ∈ p.states, y ∈ d.eom.args) → ∃ d ∈ p'.states, y ∈ d.eom.args) ∧ ∀ ns, SumSwitches ns p → SumSwitches ns p' := by
  rcases hs with rfl | rfl | rfl
  · change momentumShift p = .ok p' at h
    rw [momentumShift] at h
    split at h
    · cases h
    · cases h
      exact ⟨fun y ⟨d, hd, hy⟩ => ⟨d, List.mem_append_left _ hd, hy⟩, fun ns hn => hn⟩
  · obtain ⟨c, u, e, p1, p2, -, -, -, e1, e2, h1, e3, e4⟩ := epsTrigPy_inv h
    refine ⟨fun y hy => ?_, fun ns hn => ?_⟩
    · rw [e3]
      exact (subsAllPy_keep h1).states y (by rw [e1]; exact hy)
    · have : SumSwitches ns p1 := by rw [SumSwitches, e2]; exact hn
      rw [SumSwitches, e4, (subsAllPy_ok h1).1]
      exact this.subsAll u e
  · obtain ⟨loc, i, c, k, a, lo, hi, -, -, -, -, -, -, -, -, rfl⟩ := (utm_inv h).shape
    exact ⟨fun y hy => hy, fun ns hn => hn⟩

theorem front_keeps_run {S : Sympy} : ∀ {steps : List Step}, (∀ s ∈ steps, s = .momentumShift ∨ s = .epsTrig ∨ s = .utm) → ∀ {p p' : Prob},
    runStepsPy S steps p = .ok p' →
    (∀ y, (∃ d ∈ p.states, y ∈ d.eom.args) → ∃ d ∈ p'.states, y ∈ d.eom.args) ∧ ∀ ns, SumSwitches ns p → SumSwitches ns p'
  | [], _, p, p', h => by cases h; exact ⟨fun _ h => h, fun _ h => h⟩
  | s :: steps, hs, p, p', h => by
    rw [runStepsPy, List.foldlM_cons] at h
    obtain ⟨q, h1, h⟩ := bind_ok h
    obtain ⟨a1, a2⟩ := front_keeps (hs s (by simp)) h1
    obtain ⟨b1, b2⟩ := front_keeps_run (fun t ht => hs t (by simp [ht])) h
    exact ⟨fun y hy => b1 y (a1 y hy), fun ns hn => b2 ns (a2 ns hn)⟩

theorem preprocessPy_keeps {p p' : Prob} (h : preprocessPy p = .ok p') :
    (∀ y, (∃ d ∈ p.states, y ∈ d.eom.args) → ∃ d ∈ p'.states, y ∈ d.eom.args) ∧ SumSwitches (p.switches.map Switch.name) p' := by
  rw [preprocessPy] at h
  obtain ⟨p0, h0, h⟩ := bind_ok h
  rw [Prob.sympify] at h0
  split at h0
  · cases h0
  · cases h0
    rw [applyQuantitiesPy, if_neg (by simp)] at h
    obtain ⟨qs, -, h⟩ := bind_ok h
    obtain ⟨e1, k1⟩ := elimLoopPy_ok h
    refine ⟨fun y hy => k1.states y hy, ?_⟩
    rw [e1]
    refine SumSwitches.elimLoop ⟨by simp [List.map_map, Function.comp_def, Switch.sympify], ?_⟩ _
    intro s hs
    obtain ⟨s0, -, rfl⟩ := List.mem_map.1 hs
    exact isSum_rashsFunc _ _ _

/-- The run of a successful pipeline. -/
theorem indirectPy_split {S : Sympy} {o : Opts} {p p' : Prob} (h : indirectPy S o p = .ok p') : ∃ p1 ineq p2 p3,
    preprocessPy p = .ok p1 ∧ ineqSteps (p1.initial ++ p1.path ++ p1.terminal) = .ok ineq ∧
    runStepsPy S ((if o.momentumShift then [.momentumShift] else []) ++ ineq) p1 = .ok p2 ∧
    runStepsPy S (if p1.switches.length > 0 then [.rashs] else []) p2 = .ok p3 := by
  rw [indirectPy] at h
  obtain ⟨p1, h1, h⟩ := bind_ok h
  obtain ⟨steps, h2, h⟩ := bind_ok h
  obtain ⟨ineq, ctl, hineq, hctl, rfl⟩ := indirectSteps_ok h2
  simp only [List.append_assoc] at h
  rw [← List.append_assoc, runStepsPy_append] at h
  obtain ⟨p2, h3, h⟩ := bind_ok h
  rw [runStepsPy_append] at h
  obtain ⟨p3, h4, h⟩ := bind_ok h
  exact ⟨p1, ineq, p2, p3, h1, hineq, h3, h4⟩

theorem front_mem {o : Opts} {cons : List Con} {ineq : List Step} (h : ineqSteps cons = .ok ineq) :
    ∀ s ∈ (if o.momentumShift then [Step.momentumShift] else []) ++ ineq, s = .momentumShift ∨ s = .epsTrig ∨ s = .utm := by
  intro s hs
  rcases List.mem_append.1 hs with hs | hs
  · split at hs
    · exact Or.inl (List.mem_singleton.1 hs)
    · simp at hs
  · exact Or.inr (ineqSteps_mem h s hs)

/-- **C87, violated for switches.** A rate in which a table or user function is applied to a switch: no boundary value problem is
generated, whatever the options. -/
theorem C87_violated_switch (S : Sympy) (o : Opts) {p : Prob} {s : Name} (hs : s ∈ p.switches.map Switch.name) {d : Dyn}
    (hd : d ∈ p.states) (hsd : s ∈ d.eom.args) (p' : Prob) : indirectPy S o p ≠ .ok p' := by
  intro h
  obtain ⟨p1, ineq, p2, p3, h1, h2, h3, h4⟩ := indirectPy_split h
  obtain ⟨a1, a2⟩ := preprocessPy_keeps h1
  obtain ⟨b1, b2⟩ := front_keeps_run (front_mem h2) h3
  have hl : p1.switches.length > 0 := by
    have := List.length_pos_of_mem hs
    rw [← a2.1] at this
    simpa using this
  rw [if_pos hl, runStepsPy, List.foldlM_cons] at h4
  obtain ⟨p4, h5, -⟩ := bind_ok h4
  exact rashsPy_refuses (b2 _ a2) hs (b1 s (a1 s ⟨d, hd, hsd⟩)) h5

theorem find?_eraseIdx {α : Type _} {q : α → Bool} {l : List α} {i : Nat} {a : α} (ha : l[i]? = some a) (hq : q a = false) :
    (l.eraseIdx i).find? q = l.find? q := by
  rw [← List.head?_filter, ← List.head?_filter, filter_eraseIdx q l i a ha hq]

theorem ineqSteps_eps : ∀ {cons : List Con} {ineq : List Step}, ineqSteps cons = .ok ineq → ∀ c ∈ cons, c.twoSided = true → c.method = .epstrig →
    .epsTrig ∈ ineq := by
  intro cons ineq h c hc ht hm
  rw [ineqSteps] at h
  have : ∀ (l : List Con) (r : List Step), (l.mapM fun c => match c.method with
      | .epstrig => (.ok .epsTrig : Py Step) | .utm => .ok .utm | .other => .error .notImplementedError) = .ok r → c ∈ l → .epsTrig ∈ r := by
    intro l
    induction l with
    | nil => intro r _ h; cases h
    | cons a l ih =>
      intro r h hc
      rw [List.mapM_cons] at h
      obtain ⟨s, h1, h⟩ := bind_ok h
      obtain ⟨r', h2, h⟩ := bind_ok h
      cases h
      rcases List.mem_cons.1 hc with rfl | hc
      · rw [hm] at h1
        cases h1
        simp
      · exact List.mem_cons_of_mem _ (ih r' h2 hc)
  exact this _ _ h (List.mem_filter.2 ⟨hc, ht⟩)

theorem runStepsPy_eps_refuses {S : Sympy} {u : Name} : ∀ {steps : List Step}, (∀ s ∈ steps, s = .momentumShift ∨ s = .epsTrig ∨ s = .utm) →
    .epsTrig ∈ steps → ∀ {p p' : Prob}, (∃ c, p.path.find? (fun c => c.method = .epstrig) = some c ∧ c.expr = sym u) →
    (∃ d ∈ p.states, u ∈ d.eom.args) → runStepsPy S steps p ≠ .ok p'
  | [], _, h, _, _, _, _ => by cases h
  | s :: steps, hs, hm, p, p', hc, hd => by
    intro h
    rw [runStepsPy, List.foldlM_cons] at h
    obtain ⟨q, h1, h2⟩ := bind_ok h
    have h2 : runStepsPy S steps q = .ok p' := h2
    clear h
    obtain ⟨a1, -⟩ := front_keeps (hs s (by simp)) h1
    obtain ⟨c, hc, hcu⟩ := hc
    rcases hs s (by simp) with rfl | rfl | rfl
    · refine runStepsPy_eps_refuses (fun t ht => hs t (by simp [ht])) (by simpa using hm) (p := q) ⟨c, ?_, hcu⟩ (a1 u hd) h2
      change momentumShift p = .ok q at h1
      rw [momentumShift] at h1
      split at h1
      · cases h1
      · cases h1; exact hc
    · obtain ⟨c', u', e, p1, p2, h6, h3, h4, e1, -, h5, -, -⟩ := epsTrigPy_inv h1
      rw [hc] at h6
      cases h6
      rw [hcu] at h3
      cases h3
      obtain ⟨d, hd, hud⟩ := hd
      have := (subsAllPy_ok h5).2 d.eom (eom_visited (by rw [e1]; exact hd))
      exact absurd (blocked_iff.2 ⟨h4.ne u, hud⟩) (by simp [this])
    · refine runStepsPy_eps_refuses (fun t ht => hs t (by simp [ht])) (by simpa using hm) (p := q) ⟨c, ?_, hcu⟩ (a1 u hd) h2
      obtain ⟨loc, i, c', k, a, lo, hi, -, h4, h3, -, -, -, -, -, rfl⟩ := (utm_inv h1).shape
      simp only []
      by_cases hl : loc = 1
      · subst hl
        have h4 : p.path[i]? = some c' := h4
        rw [if_pos rfl, find?_eraseIdx h4 (by simp [h3])]
        exact hc
      · rw [if_neg hl]
        exact hc

/-- **C87, violated for bounded controls.** The first control bounded by 'epstrig' in the argument of a table or user function in a rate:
no boundary value problem is generated, whatever the options. -/
theorem C87_violated_control (S : Sympy) (o : Opts) {p : Prob} (ha : Acyclic (defsQ p.quantities)) {u : Name} {c : Con}
    (hu : u ∉ p.quantities.map Quantity.name) (hc : p.path.find? (fun c => c.method = .epstrig) = some c) (hcu : c.expr = sym u)
    (ht : c.twoSided = true) {d : Dyn} (hd : d ∈ p.states) (hud : u ∈ d.eom.args) (p' : Prob) : indirectPy S o p ≠ .ok p' := by
  intro h
  obtain ⟨p1, ineq, p2, p3, h1, h2, h3, -⟩ := indirectPy_split h
  obtain ⟨a1, -⟩ := preprocessPy_keeps h1
  have h1 := preprocessPy_ok h1
  rw [preprocess] at h1
  obtain ⟨p0, h0, h1⟩ := bind_ok h1
  rw [Prob.sympify] at h0
  split at h0
  · cases h0
  · cases h0
    have hD : defsQ (p.quantities.map Quantity.sympify) = defsQ p.quantities := by
      simp [defsQ, List.map_map, Function.comp_def, Quantity.sympify]
    obtain ⟨p1', f, e1, e2, e3⟩ := C25_eliminated_partial { p with
      sympified := true
      quantities := p.quantities.map Quantity.sympify
      switches := p.switches.map Switch.sympify } rfl (by change Acyclic (defsQ (p.quantities.map Quantity.sympify)); rw [hD]; exact ha)
    rw [h1] at e1
    cases e1
    have hpath : p1.path = p.path.map (Con.rw f) := by
      have : p1.dropQuantities.path = p.path.map (Con.rw f) := by rw [e2]; rfl
      exact this
    have hfu : f (sym u) = sym u := e3.fixes _ (by
      intro s hs
      change s ∉ (defsQ (p.quantities.map Quantity.sympify)).map Prod.fst
      rw [hD]
      simp only [free, List.mem_singleton] at hs
      rw [hs]
      simpa [defsQ, List.map_map, Function.comp_def] using hu)
    have hf : p1.path.find? (fun c => c.method = .epstrig) = some (c.rw f) := by
      rw [hpath, List.find?_map]
      change Option.map (Con.rw f) (p.path.find? fun c => decide (c.method = .epstrig)) = _
      rw [hc]
      rfl
    refine runStepsPy_eps_refuses (u := u) (front_mem h2) ?_ ⟨_, hf, ?_⟩ (a1 u ⟨d, hd, hud⟩) h3
    · refine List.mem_append_right _ (ineqSteps_eps h2 (c.rw f) ?_ (by rw [twoSided_rw]; exact ht) ?_)
      · simp [List.mem_of_find?_eq_some hf]
      · simpa using List.find?_some hf
    · change f c.expr = sym u
      rw [hcu, hfu]

/-! ### Examples -/

/-- A trajectory in an atmosphere with a table of the density: the table of the altitude, then the table of a quantity. -/
def exTabled (arg : Expr) : Prob where
  states := [⟨"h", sym "u"⟩, ⟨"v", -(fn (.user "rho" 0) arg * sym "k")⟩]
  controls := ["u"]
  constants := ["k", "scale", "eps", "one"]
  quantities := [⟨"drag", sym "v" * sym "v" * sym "k", []⟩, ⟨"height", sym "h" / sym "scale", []⟩]
  path := [⟨sym "u", some (-(sym "one")), some (sym "one"), some (sym "eps"), .epstrig⟩]
  costPath := sym "drag" + sym "u" * sym "u"

example (S : Sympy) (o : Opts) : indirectPy S o (exTabled (sym "h")) = indirect S o (exTabled (sym "h")) :=
  C87_agrees_partial S o (by decide +kernel) (by decide +kernel)

example (S : Sympy) (o : Opts) : indirectPy S o (exTabled (sym "height")) = .error .typeError :=
  (C87_violated_quantity S ⟨fun _ => 0, by decide +kernel⟩ (q := "height") (by decide +kernel)
    (d := ⟨"v", -(fn (.user "rho" 0) (sym "height") * sym "k")⟩) (by decide +kernel) (by decide +kernel)).1 o

example (S : Sympy) (o : Opts) (p' : Prob) : indirectPy S o (exTabled (sym "u" + sym "h")) ≠ .ok p' :=
  C87_violated_control S o ⟨fun _ => 0, by decide +kernel⟩ (u := "u") (c := ⟨sym "u", some (-(sym "one")), some (sym "one"), some (sym "eps"), .epstrig⟩)
    (by decide +kernel) (by decide +kernel) rfl rfl
    (d := ⟨"v", -(fn (.user "rho" 0) (sym "u" + sym "h") * sym "k")⟩) (by decide +kernel) (by decide +kernel) p'

/-- A gravity that is switched, in the argument of a user function. -/
def exSwitched : Prob where
  states := [⟨"x", fn (.user "f" 0) (sym "g")⟩]
  switches := [⟨"g", [1, 2], [[sym "x"], [-(sym "x")]], sym "tol", 0⟩]
  constants := ["tol"]

example (S : Sympy) (o : Opts) (p' : Prob) : indirectPy S o exSwitched ≠ .ok p' :=
  C87_violated_switch S o (s := "g") (by decide +kernel) (d := ⟨"x", fn (.user "f" 0) (sym "g")⟩) (by decide +kernel) (by decide +kernel) p'

end Beluga.Sym
