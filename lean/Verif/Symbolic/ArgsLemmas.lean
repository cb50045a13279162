import Verif.Symbolic.Args
import Verif.Symbolic.Props6

/-! # Substitution in arguments: lemmas -/

namespace Beluga.Sym

open Expr

theorem args_free {x : Name} : ∀ {e : Expr}, x ∈ e.args → x ∈ e.free
  | num _, h => by simp [Expr.args] at h
  | .pi, h => by simp [Expr.args] at h
  | sym _, h => by simp [Expr.args] at h
  | add a b, h => by
    simp only [Expr.args, free, List.mem_append] at h ⊢
    exact h.imp args_free args_free
  | mul a b, h => by
    simp only [Expr.args, free, List.mem_append] at h ⊢
    exact h.imp args_free args_free
  | inv a, h => args_free (e := a) h
  | pow a _, h => args_free (e := a) h
  | fn f a, h => by
    cases f
    case user => exact h
    all_goals exact args_free (e := a) h

/-- A substitution that is not refused adds no arguments but those of the substitute. -/
theorem args_subs {x y : Name} {e : Expr} : ∀ {t : Expr}, x ∉ t.args → y ∈ (Expr.subs x e t).args → y ∈ t.args ∨ y ∈ e.args
  | num _, _, h => by simp [Expr.args, Expr.subs] at h
  | .pi, _, h => by simp [Expr.args, Expr.subs] at h
  | sym s, _, h => by
    rw [Expr.subs] at h
    split at h
    · exact Or.inr h
    · simp [Expr.args] at h
  | add a b, hx, h => by
    simp only [Expr.args, Expr.subs, List.mem_append, not_or] at hx h ⊢
    rcases h with h | h
    · rcases args_subs hx.1 h with h | h <;> simp [h]
    · rcases args_subs hx.2 h with h | h <;> simp [h]
  | mul a b, hx, h => by
    simp only [Expr.args, Expr.subs, List.mem_append, not_or] at hx h ⊢
    rcases h with h | h
    · rcases args_subs hx.1 h with h | h <;> simp [h]
    · rcases args_subs hx.2 h with h | h <;> simp [h]
  | inv a, hx, h => args_subs (t := a) hx h
  | pow a _, hx, h => args_subs (t := a) hx h
  | fn f a, hx, h => by
    cases f
    case user n k =>
      simp only [Expr.args, Expr.subs] at hx h ⊢
      rw [subs_of_not_mem hx] at h
      exact Or.inl h
    all_goals exact args_subs (t := a) hx h

/-- Another symbol stays in the arguments. -/
theorem args_subs_of_ne {x y : Name} (hne : y ≠ x) {e : Expr} : ∀ {t : Expr}, y ∈ t.args → y ∈ (Expr.subs x e t).args
  | num _, h => by simp [Expr.args] at h
  | .pi, h => by simp [Expr.args] at h
  | sym s, h => by simp [Expr.args] at h
  | add a b, h => by
    simp only [Expr.args, Expr.subs, List.mem_append] at h ⊢
    exact h.imp (args_subs_of_ne hne) (args_subs_of_ne hne)
  | mul a b, h => by
    simp only [Expr.args, Expr.subs, List.mem_append] at h ⊢
    exact h.imp (args_subs_of_ne hne) (args_subs_of_ne hne)
  | inv a, h => args_subs_of_ne (t := a) hne h
  | pow a _, h => args_subs_of_ne (t := a) hne h
  | fn f a, h => by
    cases f
    case user n k =>
      simp only [Expr.args, Expr.subs] at h ⊢
      exact mem_free_subs.2 (Or.inl ⟨h, hne⟩)
    all_goals exact args_subs_of_ne (t := a) hne h

theorem subs_self (x : Name) : ∀ t : Expr, Expr.subs x (sym x) t = t
  | num _ => rfl
  | .pi => rfl
  | sym s => by
    rw [Expr.subs]
    split
    · next h => rw [h]
    · rfl
  | add a b => by rw [Expr.subs, subs_self x a, subs_self x b]
  | mul a b => by rw [Expr.subs, subs_self x a, subs_self x b]
  | inv a => by rw [Expr.subs, subs_self x a]
  | pow a _ => by rw [Expr.subs, subs_self x a]
  | fn _ a => by rw [Expr.subs, subs_self x a]

theorem blocked_iff {x : Name} {new e : Expr} : blocked x new e = true ↔ new ≠ sym x ∧ x ∈ e.args := by
  simp [blocked]

/-- A substitution that is not refused leaves no argument behind. -/
theorem args_keep {x y : Name} {e t : Expr} (hb : blocked x e t = false) (h : y ∈ t.args) : y ∈ (Expr.subs x e t).args := by
  by_cases hy : y = x
  · subst hy
    by_cases he : e = sym y
    · rw [he, subs_self]; exact h
    · exact absurd (blocked_iff.2 ⟨he, h⟩) (by simp [hb])
  · exact args_subs_of_ne hy h

theorem visited_subsAll (x : Name) (e : Expr) (p : Prob) : (p.subsAll x e).visited = p.visited.map (Expr.subs x e) := by
  have hc : ∀ l : List Con, (l.map (Con.subs x e)).flatMap (fun c => c.expr :: (c.lower.toList ++ c.upper.toList)) =
      (l.flatMap fun c => c.expr :: (c.lower.toList ++ c.upper.toList)).map (Expr.subs x e) := by
    intro l
    rw [List.flatMap_map, List.map_flatMap]
    congr 1
    funext c
    cases c with
    | mk ex lo hi a m => cases lo <;> cases hi <;> rfl
  cases p with
  | mk =>
    simp only [Prob.visited, Prob.subsAll, List.flatMap_append, List.map_append, List.map_map, Function.comp_def, Dyn.subs, Quantity.subs,
      Switch.subs, List.map_flatten, Option.toList_map, hc, List.map_cons, List.map_nil]

/-- The expressions visited, but for the definitions of the quantities, follow the equations. -/
theorem visited_mapEqs (f : Expr → Expr) (p : Prob) : (p.dropQuantities.mapEqs f).visited = p.dropQuantities.visited.map f := by
  have hc : ∀ l : List Con, (l.map fun c => (⟨f c.expr, c.lower.map f, c.upper.map f, c.activator, c.method⟩ : Con)).flatMap
      (fun c => c.expr :: (c.lower.toList ++ c.upper.toList)) =
      (l.flatMap fun c => c.expr :: (c.lower.toList ++ c.upper.toList)).map f := by
    intro l
    rw [List.flatMap_map, List.map_flatMap]
    congr 1
    funext c
    cases c with
    | mk ex lo hi a m => cases lo <;> cases hi <;> rfl
  cases p with
  | mk =>
    simp only [Prob.visited, Prob.dropQuantities, Prob.mapEqs, List.flatMap_append, List.map_append, List.map_map, Function.comp_def,
      List.map_flatten, Option.toList_map, hc, List.map_cons, List.map_nil]

theorem mem_visited_dropQuantities {p : Prob} {t : Expr} (h : t ∈ p.visited) :
    t ∈ p.dropQuantities.visited ∨ ∃ q ∈ p.quantities, q.expr = t := by
  simp only [Prob.visited, Prob.dropQuantities, List.mem_append, List.map_nil, List.mem_map, List.not_mem_nil, or_false] at h ⊢
  by_cases hq : ∃ a ∈ p.quantities, a.expr = t
  · exact Or.inr hq
  · rw [or_iff_left (b := ∃ a ∈ p.quantities, a.expr = t) hq] at h
    exact Or.inl h

/-- No argument of a table or user function has disappeared from the expressions, nor from the rates. -/
structure KeepsArgs (p p' : Prob) : Prop where
  visited : ∀ y, (∃ t ∈ p.visited, y ∈ t.args) → ∃ t ∈ p'.visited, y ∈ t.args
  states : ∀ y, (∃ d ∈ p.states, y ∈ d.eom.args) → ∃ d ∈ p'.states, y ∈ d.eom.args

theorem KeepsArgs.refl (p : Prob) : KeepsArgs p p := ⟨fun _ h => h, fun _ h => h⟩

theorem KeepsArgs.trans {p p' p'' : Prob} (h : KeepsArgs p p') (h' : KeepsArgs p' p'') : KeepsArgs p p'' :=
  ⟨fun y hy => h'.visited y (h.visited y hy), fun y hy => h'.states y (h.states y hy)⟩

/-! ### The refusing functors compute what the others compute -/

theorem subsAllPy_ok {x : Name} {e : Expr} {p p' : Prob} (h : p.subsAllPy x e = .ok p') :
    p' = p.subsAll x e ∧ ∀ t ∈ p.visited, blocked x e t = false := by
  rw [Prob.subsAllPy] at h
  split at h
  · cases h
  · next hb =>
    cases h
    simp only [List.any_eq_true, not_exists, not_and, Bool.not_eq_true] at hb
    exact ⟨rfl, hb⟩

theorem subsAllPy_of {x : Name} {e : Expr} {p : Prob} (h : ∀ t ∈ p.visited, x ∉ t.args) : p.subsAllPy x e = .ok (p.subsAll x e) := by
  rw [Prob.subsAllPy, if_neg]
  simp only [List.any_eq_true, not_exists, not_and]
  intro t ht hb
  exact h t ht (blocked_iff.1 hb).2

theorem mergeRowPy_ok {i : Nat} {qs : List Quantity} : ∀ {n : Nat} {r : List Quantity}, mergeRowPy i qs n = .ok r →
    r = mergeRow i qs n ∧ ∀ y, (∃ q ∈ qs, y ∈ q.expr.args) → ∃ q ∈ r, y ∈ q.expr.args
  | 0, r, h => by cases h; exact ⟨rfl, fun _ h => h⟩
  | j + 1, r, h => by
    rw [mergeRowPy] at h
    obtain ⟨qs1, h1, h⟩ := bind_ok h
    obtain ⟨e1, k1⟩ := mergeRowPy_ok h1
    rw [mergeRow, ← e1]
    cases hi : qs1[i]? with
    | none => simp only [hi] at h; cases h; exact ⟨rfl, k1⟩
    | some qi =>
      cases hj : qs1[j]? with
      | none => simp only [hi, hj] at h; cases h; exact ⟨rfl, k1⟩
      | some qj =>
        simp only [hi, hj] at h ⊢
        split at h
        · next hc =>
          rw [if_pos hc]
          split at h
          · cases h
          · next hb =>
            cases h
            refine ⟨rfl, fun y hy => ?_⟩
            obtain ⟨q, hq, hy⟩ := k1 y hy
            obtain ⟨m, hm, rfl⟩ := List.getElem_of_mem hq
            by_cases e : j = m
            · subst e
              have e2 : qs1[j] = qj := by rw [List.getElem?_eq_getElem hm] at hj; exact Option.some.inj hj
              refine ⟨qj.subs qi.name qi.expr, List.mem_iff_getElem.2 ⟨j, by simpa using hm, by simp⟩, ?_⟩
              rw [e2] at hy
              exact args_keep (by simpa using hb) hy
            · exact ⟨qs1[m], List.mem_iff_getElem.2 ⟨m, by simpa using hm, by simp [e]⟩, hy⟩
        · next hc => rw [if_neg hc]; cases h; exact ⟨rfl, k1⟩

theorem mergeRowsPy_ok {n : Nat} {qs : List Quantity} : ∀ {i : Nat} {r : List Quantity}, mergeRowsPy n qs i = .ok r →
    r = mergeRows n qs i ∧ ∀ y, (∃ q ∈ qs, y ∈ q.expr.args) → ∃ q ∈ r, y ∈ q.expr.args
  | 0, r, h => by cases h; exact ⟨rfl, fun _ h => h⟩
  | i + 1, r, h => by
    rw [mergeRowsPy] at h
    obtain ⟨qs1, h1, h⟩ := bind_ok h
    obtain ⟨e1, k1⟩ := mergeRowsPy_ok h1
    obtain ⟨e2, k2⟩ := mergeRowPy_ok h
    exact ⟨by rw [e2, mergeRows, e1], fun y hy => k2 y (k1 y hy)⟩

theorem eom_visited {p : Prob} {d : Dyn} (h : d ∈ p.states) : d.eom ∈ p.visited := by
  simp only [Prob.visited, List.mem_append, List.mem_map]
  iterate 11 apply Or.inl
  exact ⟨d, h, rfl⟩

theorem subsAllPy_keep {x : Name} {e : Expr} {p p' : Prob} (h : p.subsAllPy x e = .ok p') : KeepsArgs p p' := by
  obtain ⟨rfl, hb⟩ := subsAllPy_ok h
  refine ⟨?_, ?_⟩
  · rintro y ⟨t, ht, hy⟩
    rw [visited_subsAll]
    exact ⟨_, List.mem_map.2 ⟨t, ht, rfl⟩, args_keep (hb t ht) hy⟩
  · rintro y ⟨d, hd, hy⟩
    exact ⟨d.subs x e, List.mem_map.2 ⟨d, hd, rfl⟩, args_keep (hb _ (eom_visited hd)) hy⟩

theorem elimLoopPy_ok {p : Prob} : ∀ {k : Nat} {r : Prob}, elimLoopPy p k = .ok r →
    r = elimLoop p k ∧ KeepsArgs p r
  | 0, r, h => by cases h; exact ⟨rfl, KeepsArgs.refl _⟩
  | k + 1, r, h => by
    rw [elimLoopPy] at h
    obtain ⟨p1, h1, h⟩ := bind_ok h
    obtain ⟨e1, k1⟩ := elimLoopPy_ok h1
    rw [elimLoop, ← e1]
    cases hq : p1.quantities[k]? with
    | none => simp only [hq] at h; cases h; exact ⟨rfl, k1⟩
    | some q =>
      simp only [hq] at h ⊢
      exact ⟨(subsAllPy_ok h).1, k1.trans (subsAllPy_keep h)⟩

theorem rashsLoopPy_ok {p : Prob} : ∀ {k : Nat} {r : Prob}, rashsLoopPy p k = .ok r →
    r = rashsLoop p k ∧ KeepsArgs p r
  | 0, r, h => by cases h; exact ⟨rfl, KeepsArgs.refl _⟩
  | k + 1, r, h => by
    rw [rashsLoopPy] at h
    obtain ⟨p1, h1, h⟩ := bind_ok h
    obtain ⟨e1, k1⟩ := rashsLoopPy_ok h1
    rw [rashsLoop, ← e1]
    cases hq : p1.switches[k]? with
    | none => simp only [hq] at h; cases h; exact ⟨rfl, k1⟩
    | some q =>
      simp only [hq] at h ⊢
      exact ⟨(subsAllPy_ok h).1, k1.trans (subsAllPy_keep h)⟩

theorem applyQuantitiesPy_ok {p p' : Prob} (h : applyQuantitiesPy p = .ok p') : applyQuantities p = .ok p' := by
  rw [applyQuantitiesPy] at h
  rw [applyQuantities]
  split at h
  · cases h
  · next hs =>
    rw [if_neg hs]
    obtain ⟨qs, h1, h⟩ := bind_ok h
    rw [(elimLoopPy_ok h).1, (mergeRowsPy_ok h1).1]

theorem rashsPy_ok {p p' : Prob} (h : rashsPy p = .ok p') : rashs p = .ok p' := by
  rw [rashsPy] at h
  rw [rashs]
  split at h
  · cases h
  · next hs => rw [if_neg hs, (rashsLoopPy_ok h).1]

theorem epsTrigPy_ok {p p' : Prob} (h : epsTrigPy p = .ok p') : epsTrig p = .ok p' := by
  rw [epsTrigPy] at h
  rw [epsTrig]
  split at h
  · cases h
  · next hs =>
    rw [if_neg hs]
    split at h
    · cases h
    · next i hi =>
      split at h
      · cases h
      · next c hc =>
        split at h
        · cases h
        · next k hk =>
          split at h
          · next u a lo hi' h1 h2 h3 h4 =>
            obtain ⟨p2, h5, h⟩ := bind_ok h
            simp only [hi, hc, hk, h1, h2, h3, h4]
            rw [(subsAllPy_ok h5).1] at h
            exact h
          · cases h

theorem runPy_ok {S : Sympy} {s : Step} {p p' : Prob} (h : s.runPy S p = .ok p') : s.run S p = .ok p' := by
  cases s with
  | epsTrig => exact epsTrigPy_ok h
  | rashs => exact rashsPy_ok h
  | _ => exact h

theorem runStepsPy_ok {S : Sympy} : ∀ {steps : List Step} {p p' : Prob}, runStepsPy S steps p = .ok p' → runSteps S steps p = .ok p'
  | [], _, _, h => h
  | s :: steps, p, p', h => by
    rw [runStepsPy, List.foldlM_cons] at h
    obtain ⟨q, h1, h⟩ := bind_ok h
    rw [runSteps, List.foldlM_cons, runPy_ok h1]
    exact runStepsPy_ok h

theorem preprocessPy_ok {p p' : Prob} (h : preprocessPy p = .ok p') : preprocess p = .ok p' := by
  rw [preprocessPy] at h
  obtain ⟨q, h1, h⟩ := bind_ok h
  rw [preprocess, h1]
  exact applyQuantitiesPy_ok h

/-! ### Only `TypeError` is added -/

theorem mergeRowPy_error {i : Nat} {qs : List Quantity} : ∀ {n : Nat} {e : PyErr}, mergeRowPy i qs n = .error e → e = .typeError
  | 0, e, h => by cases h
  | j + 1, e, h => by
    rw [mergeRowPy] at h
    cases h1 : mergeRowPy i qs j with
    | error e' => rw [h1] at h; cases h; exact mergeRowPy_error h1
    | ok qs1 =>
      rw [h1] at h
      change (match qs1[i]?, qs1[j]? with
        | some qi, some qj =>
          if qi.name ∈ qj.cached then
            if blocked qi.name qi.expr qj.expr then .error .typeError else .ok (qs1.set j (qj.subs qi.name qi.expr))
          else .ok qs1
        | _, _ => .ok qs1 : Py (List Quantity)) = .error e at h
      split at h
      · split at h
        · split at h
          · cases h; rfl
          · cases h
        · cases h
      · cases h

theorem mergeRowsPy_error {n : Nat} {qs : List Quantity} : ∀ {i : Nat} {e : PyErr}, mergeRowsPy n qs i = .error e → e = .typeError
  | 0, e, h => by cases h
  | i + 1, e, h => by
    rw [mergeRowsPy] at h
    cases h1 : mergeRowsPy n qs i with
    | error e' => rw [h1] at h; cases h; exact mergeRowsPy_error h1
    | ok qs1 => rw [h1] at h; exact mergeRowPy_error h

theorem subsAllPy_error {x : Name} {e : Expr} {p : Prob} {er : PyErr} (h : p.subsAllPy x e = .error er) : er = .typeError := by
  rw [Prob.subsAllPy] at h
  split at h
  · cases h; rfl
  · cases h

theorem elimLoopPy_error {p : Prob} : ∀ {k : Nat} {e : PyErr}, elimLoopPy p k = .error e → e = .typeError
  | 0, e, h => by cases h
  | k + 1, e, h => by
    rw [elimLoopPy] at h
    cases h1 : elimLoopPy p k with
    | error e' => rw [h1] at h; cases h; exact elimLoopPy_error h1
    | ok p1 =>
      rw [h1] at h
      change (match p1.quantities[k]? with | some q => p1.subsAllPy q.name q.expr | none => .ok p1 : Py Prob) = .error e at h
      split at h
      · exact subsAllPy_error h
      · cases h

theorem applyQuantitiesPy_error {p : Prob} (hs : p.sympified = true) {e : PyErr} (h : applyQuantitiesPy p = .error e) :
    e = .typeError := by
  rw [applyQuantitiesPy, hs] at h
  simp only [Bool.not_true, Bool.false_eq_true, if_false] at h
  cases h1 : mergeRowsPy p.quantities.length p.quantities p.quantities.length with
  | error e' => rw [h1] at h; cases h; exact mergeRowsPy_error h1
  | ok qs => rw [h1] at h; exact elimLoopPy_error h

theorem rashsLoopPy_error {p : Prob} : ∀ {k : Nat} {e : PyErr}, rashsLoopPy p k = .error e → e = .typeError
  | 0, e, h => by cases h
  | k + 1, e, h => by
    rw [rashsLoopPy] at h
    cases h1 : rashsLoopPy p k with
    | error e' => rw [h1] at h; cases h; exact rashsLoopPy_error h1
    | ok p1 =>
      rw [h1] at h
      change (match p1.switches[k]? with | some s => p1.subsAllPy s.name s.symFunc | none => .ok p1 : Py Prob) = .error e at h
      split at h
      · exact subsAllPy_error h
      · cases h

end Beluga.Sym
