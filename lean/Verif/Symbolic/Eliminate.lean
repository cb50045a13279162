import Verif.Symbolic.Spec

/-! # Elimination of quantities and switches -/

namespace Beluga.Sym

open Expr

/-- A definition stays ranked when a lower symbol in it is replaced by its ranked definition. -/
def Ranked (N : List Name) (r : Name → Nat) (n : Name) (e : Expr) : Prop := ∀ s ∈ e.free, s ∈ N → r s < r n

theorem Ranked.subs {N : List Name} {r : Name → Nat} {n m : Name} {e d : Expr} (hm : m ∈ N)
    (he : Ranked N r n e) (hd : Ranked N r m d) : Ranked N r n (Expr.subs m d e) := by
  intro s hs hsN
  rcases mem_free_subs.1 hs with ⟨h, -⟩ | ⟨h, h2⟩
  · exact he s h hsN
  · exact (hd s h hsN).trans (he m h2 hm)

theorem mapEqs_id (p : Prob) : p.mapEqs id = p := by
  cases p; simp [Prob.mapEqs]

theorem mapEqs_mapEqs (f g : Expr → Expr) (p : Prob) : (p.mapEqs f).mapEqs g = p.mapEqs (g ∘ f) := by
  cases p; simp [Prob.mapEqs, List.map_map, Function.comp_def, Option.map_map]

theorem subsAll_eq (x : Name) (e : Expr) (p : Prob) :
    p.subsAll x e = { p.mapEqs (Expr.subs x e) with quantities := p.quantities.map (Quantity.subs x e) } := by
  cases p; rfl

theorem dropQuantities_subsAll (x : Name) (e : Expr) (p : Prob) :
    (p.subsAll x e).dropQuantities = p.dropQuantities.mapEqs (Expr.subs x e) := by
  cases p; rfl

/-- What the rewriting of a table of definitions preserves: names, ranks, symbols, meanings. -/
structure TableOk (defs : List (Name × Expr)) (r : Name → Nat) (cur : List (Name × Expr)) : Prop where
  names : cur.map Prod.fst = defs.map Prod.fst
  ranked : ∀ d ∈ cur, Ranked (defs.map Prod.fst) r d.1 d.2
  fresh : ∀ d ∈ cur, ∀ s ∈ d.2.free, ∃ d' ∈ defs, s ∈ d'.2.free
  meaning : ∀ {K : Type} [Field K] (I : Interp K) (ρ : Name → K), Consistent I defs ρ → Consistent I cur ρ
  closed : ∀ P : Name → Prop, (∀ d ∈ defs, P d.1 → ∀ s ∈ d.2.free, P s) → ∀ d ∈ cur, P d.1 → ∀ s ∈ d.2.free, P s

theorem TableOk.refl {defs : List (Name × Expr)} {r : Name → Nat}
    (h : ∀ d ∈ defs, ∀ s ∈ d.2.free, s ∈ defs.map Prod.fst → r s < r d.1) : TableOk defs r defs :=
  ⟨rfl, h, fun d hd _ hs => ⟨d, hd, hs⟩, fun _ _ h => h, fun _ h => h⟩

theorem TableOk.step {defs cur : List (Name × Expr)} {r : Name → Nat} (h : TableOk defs r cur)
    {d : Name × Expr} (hd : d ∈ cur) {cur' : List (Name × Expr)} (hn : cur'.map Prod.fst = cur.map Prod.fst)
    (hc : ∀ c' ∈ cur', ∃ c ∈ cur, c'.1 = c.1 ∧ (c'.2 = c.2 ∨ c'.2 = Expr.subs d.1 d.2 c.2)) : TableOk defs r cur' := by
  have hdN : d.1 ∈ defs.map Prod.fst := by rw [← h.names]; exact List.mem_map.2 ⟨d, hd, rfl⟩
  refine ⟨hn.trans h.names, ?_, ?_, ?_, ?_⟩
  · intro c' hc'
    obtain ⟨c, hcm, e1, e2 | e2⟩ := hc c' hc'
    · rw [e1, e2]; exact h.ranked c hcm
    · rw [e1, e2]; exact (h.ranked c hcm).subs hdN (h.ranked d hd)
  · intro c' hc' s hs
    obtain ⟨c, hcm, e1, e2 | e2⟩ := hc c' hc'
    · rw [e2] at hs; exact h.fresh c hcm s hs
    · rw [e2] at hs
      rcases mem_free_subs.1 hs with ⟨h1, -⟩ | ⟨h1, -⟩
      · exact h.fresh c hcm s h1
      · exact h.fresh d hd s h1
  · intro K _ I ρ hρ c' hc'
    have hcur := h.meaning I ρ hρ
    obtain ⟨c, hcm, e1, e2 | e2⟩ := hc c' hc'
    · rw [e1, e2]; exact hcur c hcm
    · rw [e1, e2, eval_subs_of_eq I ρ _ _ _ (hcur d hd)]; exact hcur c hcm
  · intro P hP c' hc' hp s hs
    obtain ⟨c, hcm, e1, e2 | e2⟩ := hc c' hc'
    · rw [e1] at hp; rw [e2] at hs; exact h.closed P hP c hcm hp s hs
    · rw [e1] at hp; rw [e2] at hs
      rcases mem_free_subs.1 hs with ⟨h1, -⟩ | ⟨h1, h2⟩
      · exact h.closed P hP c hcm hp s h1
      · exact h.closed P hP d hd (h.closed P hP c hcm hp _ h2) s h1

theorem List.set_eq_self_of {α : Type _} {l : List α} {j : Nat} {a : α} (h : l[j]? = some a) : l.set j a = l := by
  apply List.ext_getElem?
  intro k
  rw [List.getElem?_set]
  by_cases hk : j = k
  · subst hk
    have := (List.getElem?_eq_some_iff.1 h).1
    rw [if_pos rfl, if_pos this, h]
  · rw [if_neg hk]

theorem defsQ_set (qs : List Quantity) (j : Nat) (q : Quantity) :
    defsQ (qs.set j q) = (defsQ qs).set j (q.name, q.expr) := by
  simp [defsQ, List.map_set]

theorem mergeRow_ok {defs : List (Name × Expr)} {r : Name → Nat} (i : Nat) (qs : List Quantity)
    (h : TableOk defs r (defsQ qs)) : ∀ n, TableOk defs r (defsQ (mergeRow i qs n))
  | 0 => h
  | j + 1 => by
    have ih := mergeRow_ok i qs h j
    rw [mergeRow]
    generalize mergeRow i qs j = qs1 at ih ⊢
    cases hi : qs1[i]? with
    | none => exact ih
    | some qi =>
      cases hj : qs1[j]? with
      | none => exact ih
      | some qj =>
        simp only []
        split
        · refine ih.step (d := (qi.name, qi.expr)) ?_ ?_ ?_
          · exact List.mem_map.2 ⟨qi, List.mem_of_getElem? hi, rfl⟩
          · rw [defsQ_set, List.map_set]
            apply List.set_eq_self_of
            simp [defsQ, hj, Quantity.subs]
          · intro c' hc'
            rw [defsQ_set] at hc'
            rcases List.mem_or_eq_of_mem_set hc' with h1 | h1
            · exact ⟨c', h1, rfl, Or.inl rfl⟩
            · exact ⟨(qj.name, qj.expr), List.mem_map.2 ⟨qj, List.mem_of_getElem? hj, rfl⟩, by rw [h1]; rfl,
                Or.inr (by rw [h1]; rfl)⟩
        · exact ih

theorem mergeRows_ok {defs : List (Name × Expr)} {r : Name → Nat} (n : Nat) (qs : List Quantity)
    (h : TableOk defs r (defsQ qs)) : ∀ i, TableOk defs r (defsQ (mergeRows n qs i))
  | 0 => h
  | i + 1 => by rw [mergeRows]; exact mergeRow_ok i _ (mergeRows_ok n qs h i) n

/-- The invariant of the elimination loop: `k` symbols are gone from every expression that went through `f`, and from
the table of definitions itself. -/
structure ElimInv (defs : List (Name × Expr)) (r : Name → Nat) (k : Nat) (f : Expr → Expr)
    (cur : List (Name × Expr)) : Prop where
  table : TableOk defs r cur
  gone : ∀ e, ∀ s ∈ (f e).free, s ∉ (defs.map Prod.fst).take k
  goneT : ∀ d ∈ cur, ∀ s ∈ d.2.free, s ∉ (defs.map Prod.fst).take k
  fresh : ∀ e, ∀ s ∈ (f e).free, s ∈ e.free ∨ ∃ d ∈ defs, s ∈ d.2.free
  meaning : ∀ {K : Type} [Field K] (I : Interp K) (ρ : Name → K), Consistent I defs ρ →
    ∀ e, eval I ρ (f e) = eval I ρ e
  fixes : ∀ e, (∀ s ∈ e.free, s ∉ defs.map Prod.fst) → f e = e
  closed : ∀ P : Name → Prop, (∀ d ∈ defs, P d.1 → ∀ s ∈ d.2.free, P s) → ∀ e, (∀ s ∈ e.free, P s) → ∀ s ∈ (f e).free, P s

theorem ElimInv.zero {defs cur : List (Name × Expr)} {r : Name → Nat} (h : TableOk defs r cur) :
    ElimInv defs r 0 id cur :=
  ⟨h, by simp, by simp, fun _ _ h => Or.inl h, fun _ _ _ _ => rfl, fun _ _ => rfl, fun _ _ _ h => h⟩

theorem ElimInv.step {defs cur : List (Name × Expr)} {r : Name → Nat} {k : Nat} {f : Expr → Expr}
    (h : ElimInv defs r k f cur) {d : Name × Expr} (hd : cur[k]? = some d) :
    ElimInv defs r (k + 1) (Expr.subs d.1 d.2 ∘ f) (cur.map fun c => (c.1, Expr.subs d.1 d.2 c.2)) := by
  have hm : d ∈ cur := List.mem_of_getElem? hd
  have hN : (defs.map Prod.fst)[k]? = some d.1 := by
    rw [← h.table.names, List.getElem?_map, hd]; rfl
  have hk : k < (defs.map Prod.fst).length := (List.getElem?_eq_some_iff.1 hN).1
  have hdN : d.1 ∈ defs.map Prod.fst := List.mem_of_getElem? hN
  have htake : (defs.map Prod.fst).take (k + 1) = (defs.map Prod.fst).take k ++ [d.1] := by
    rw [List.take_add_one, hN]; rfl
  have key : ∀ e : Expr, (∀ s ∈ e.free, s ∉ (defs.map Prod.fst).take k) →
      ∀ s ∈ (Expr.subs d.1 d.2 e).free, s ∉ (defs.map Prod.fst).take (k + 1) := by
    intro e he s hs hs2
    rw [htake, List.mem_append, List.mem_singleton] at hs2
    rcases mem_free_subs.1 hs with ⟨h1, h2⟩ | ⟨h1, -⟩
    · rcases hs2 with h3 | h3
      · exact he s h1 h3
      · exact h2 h3
    · rcases hs2 with h3 | h3
      · exact h.goneT d hm s h1 h3
      · rw [h3] at h1
        exact lt_irrefl _ (h.table.ranked d hm d.1 h1 hdN)
  refine ⟨?_, ?_, ?_, ?_, ?_, ?_, ?_⟩
  · refine h.table.step hm (by simp [List.map_map, Function.comp_def]) ?_
    intro c' hc'
    obtain ⟨c, hc, rfl⟩ := List.mem_map.1 hc'
    exact ⟨c, hc, rfl, Or.inr rfl⟩
  · intro e; exact key (f e) (h.gone e)
  · intro c' hc'
    obtain ⟨c, hc, rfl⟩ := List.mem_map.1 hc'
    exact key c.2 (h.goneT c hc)
  · intro e s hs
    rcases mem_free_subs.1 hs with ⟨h1, -⟩ | ⟨h1, -⟩
    · exact h.fresh e s h1
    · exact Or.inr (h.table.fresh d hm s h1)
  · intro K _ I ρ hρ e
    rw [Function.comp_apply, eval_subs_of_eq I ρ _ _ _ (h.table.meaning I ρ hρ d hm)]
    exact h.meaning I ρ hρ e
  · intro e he
    rw [Function.comp_apply, h.fixes e he, subs_of_not_mem fun hh => he _ hh hdN]
  · intro P hP e he s hs
    rcases mem_free_subs.1 hs with ⟨h1, -⟩ | ⟨h1, h2⟩
    · exact h.closed P hP e he s h1
    · exact h.table.closed P hP d hm (h.closed P hP e he _ h2) s h1

theorem ElimInv.eliminates {defs cur : List (Name × Expr)} {r : Name → Nat} {k : Nat} {f : Expr → Expr}
    (h : ElimInv defs r k f cur) (hk : defs.length ≤ k) : Eliminates defs f := by
  have : (defs.map Prod.fst).take k = defs.map Prod.fst := List.take_of_length_le (by simpa using hk)
  exact ⟨fun e s hs => by have := h.gone e s hs; rwa [‹(defs.map Prod.fst).take k = _›] at this, h.fresh, h.meaning, h.fixes, h.closed⟩

theorem defsQ_subs (x : Name) (e : Expr) (qs : List Quantity) :
    defsQ (qs.map (Quantity.subs x e)) = (defsQ qs).map fun c => (c.1, Expr.subs x e c.2) := by
  simp [defsQ, List.map_map, Function.comp_def, Quantity.subs]

theorem defsS_subs (x : Name) (e : Expr) (qs : List Switch) :
    defsS (qs.map (Switch.subs x e)) = (defsS qs).map fun c => (c.1, Expr.subs x e c.2) := by
  simp [defsS, List.map_map, Function.comp_def, Switch.subs]

theorem elimLoop_ok {defs : List (Name × Expr)} {r : Name → Nat} (p : Prob) (h : TableOk defs r (defsQ p.quantities)) :
    ∀ k, k ≤ defs.length → ∃ f, ElimInv defs r k f (defsQ (elimLoop p k).quantities) ∧
      (elimLoop p k).dropQuantities = p.dropQuantities.mapEqs f
  | 0, _ => ⟨id, ElimInv.zero h, (mapEqs_id _).symm⟩
  | k + 1, hk => by
    obtain ⟨f, hf, e⟩ := elimLoop_ok p h k (by omega)
    have hl : (defsQ (elimLoop p k).quantities).length = defs.length := by
      have := congrArg List.length hf.table.names
      simpa using this
    have hlt : k < (elimLoop p k).quantities.length := by
      simp only [defsQ, List.length_map] at hl; omega
    have hq : (elimLoop p k).quantities[k]? = some (elimLoop p k).quantities[k] := List.getElem?_eq_getElem hlt
    rw [elimLoop, hq]
    simp only []
    set q := (elimLoop p k).quantities[k] with hqd
    refine ⟨Expr.subs q.name q.expr ∘ f, ?_, ?_⟩
    · have := hf.step (d := (q.name, q.expr)) (by simp [defsQ, hq])
      rw [← defsQ_subs] at this
      exact this
    · rw [dropQuantities_subsAll, e, mapEqs_mapEqs]

theorem rashsLoop_ok {defs : List (Name × Expr)} {r : Name → Nat} (p : Prob) (h : TableOk defs r (defsS p.switches)) :
    ∀ k, k ≤ defs.length → ∃ f, ElimInv defs r k f (defsS (rashsLoop p k).switches) ∧
      (rashsLoop p k).dropTables = p.dropTables.mapEqs f
  | 0, _ => ⟨id, ElimInv.zero h, (mapEqs_id _).symm⟩
  | k + 1, hk => by
    obtain ⟨f, hf, e⟩ := rashsLoop_ok p h k (by omega)
    have hl : (defsS (rashsLoop p k).switches).length = defs.length := by
      have := congrArg List.length hf.table.names
      simpa using this
    have hlt : k < (rashsLoop p k).switches.length := by
      simp only [defsS, List.length_map] at hl; omega
    have hq : (rashsLoop p k).switches[k]? = some (rashsLoop p k).switches[k] := List.getElem?_eq_getElem hlt
    rw [rashsLoop, hq]
    simp only []
    set q := (rashsLoop p k).switches[k] with hqd
    refine ⟨Expr.subs q.name q.symFunc ∘ f, ?_, ?_⟩
    · have := hf.step (d := (q.name, q.symFunc)) (by simp [defsS, hq])
      rw [← defsS_subs] at this
      exact this
    · have e2 : ((rashsLoop p k).subsAll q.name q.symFunc).dropTables =
          ((rashsLoop p k).dropTables).mapEqs (Expr.subs q.name q.symFunc) := by
        cases rashsLoop p k; rfl
      rw [e2, e, mapEqs_mapEqs]

/-- Every valuation of the other symbols extends to one in which acyclic definitions hold. -/
theorem exists_consistent {defs : List (Name × Expr)} (ha : Acyclic defs) (hn : (defs.map Prod.fst).Nodup)
    {K : Type _} [Field K] (I : Interp K) (ρ : Name → K) :
    ∃ ρ', (∀ s, s ∉ defs.map Prod.fst → ρ' s = ρ s) ∧ Consistent I defs ρ' := by
  classical
  obtain ⟨r, hr⟩ := ha
  have uniq : ∀ d ∈ defs, ∀ d' ∈ defs, d.1 = d'.1 → d = d' := fun d hd d' hd' e =>
    List.inj_on_of_nodup_map hn hd hd' e
  have step : ∀ n : Nat, ∃ ρ' : Name → K, (∀ s, s ∉ defs.map Prod.fst → ρ' s = ρ s) ∧
      ∀ d ∈ defs, r d.1 < n → ρ' d.1 = eval I ρ' d.2 := by
    intro n
    induction n with
    | zero => exact ⟨ρ, fun _ _ => rfl, fun _ _ h => absurd h (Nat.not_lt_zero _)⟩
    | succ n ih =>
      obtain ⟨σ, h1, h2⟩ := ih
      refine ⟨fun s => match defs.find? (fun d => d.1 = s) with
        | some d => if r s = n then eval I σ d.2 else σ s
        | none => σ s, ?_, ?_⟩
      · intro s hs
        have : defs.find? (fun d => d.1 = s) = none := by
          rw [List.find?_eq_none]
          intro d hd hds
          exact hs (List.mem_map.2 ⟨d, hd, by simpa using hds⟩)
        simp only [this]
        exact h1 s hs
      · intro d hd hrd
        have hfind : ∀ d ∈ defs, defs.find? (fun d' => d'.1 = d.1) = some d := by
          intro d hd
          cases hf : defs.find? (fun d' => d'.1 = d.1) with
          | none =>
            rw [List.find?_eq_none] at hf
            exact absurd (by simp) (hf d hd)
          | some d' =>
            have e1 := List.find?_some hf
            have e2 := List.mem_of_find?_eq_some hf
            rw [uniq d' e2 d hd (by simpa using e1)]
        have agree : eval I (fun s => match defs.find? (fun d => d.1 = s) with
            | some d => if r s = n then eval I σ d.2 else σ s
            | none => σ s) d.2 = eval I σ d.2 := by
          apply eval_congr
          intro s hs
          cases hf : defs.find? (fun d => d.1 = s) with
          | none => rfl
          | some d' =>
            have e1 : d'.1 = s := by simpa using List.find?_some hf
            have hsN : s ∈ defs.map Prod.fst := List.mem_map.2 ⟨d', List.mem_of_find?_eq_some hf, e1⟩
            have := hr d hd s hs hsN
            simp only []
            rw [if_neg (by omega)]
        rw [agree]
        simp only [hfind d hd]
        by_cases hrn : r d.1 = n
        · rw [if_pos hrn]
        · rw [if_neg hrn]
          exact h2 d hd (by omega)
  obtain ⟨ρ', h1, h2⟩ := step ((defs.map fun d => r d.1).sum + 1)
  refine ⟨ρ', h1, fun d hd => h2 d hd ?_⟩
  have := List.single_le_sum (l := defs.map fun d => r d.1) (fun _ _ => Nat.zero_le _) _ (List.mem_map.2 ⟨d, hd, rfl⟩)
  omega

/-- After elimination an expression evaluates, in any environment, to what it meant before. -/
theorem Eliminates.value {defs : List (Name × Expr)} {f : Expr → Expr} (h : Eliminates defs f) {K : Type} [Field K]
    (I : Interp K) {ρ ρ' : Name → K} (h1 : ∀ s, s ∉ defs.map Prod.fst → ρ' s = ρ s) (h2 : Consistent I defs ρ')
    (e : Expr) : eval I ρ (f e) = eval I ρ' e := by
  rw [← h.meaning I ρ' h2 e]
  apply eval_congr
  intro s hs
  exact (h1 s (h.gone e s hs)).symm

end Beluga.Sym
