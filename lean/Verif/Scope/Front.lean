import Verif.Scope.Spec
import Verif.Extremal.Front

/-! # Scoping is kept up to the dual problem -/

namespace Beluga.Scope

open Beluga.Sym Beluga.Sym.Expr Beluga.Num Beluga.Opt

/-- States, parameters, constants. -/
def fixedNames (p : Prob) : List Name := sts p ++ p.parameters ++ p.constants

theorem Determined.mem {base : List Name} {defs : List (Name × List Expr)} {s : Name} (h : Determined base defs s) :
    s ∈ base ∨ s ∈ defs.map Prod.fst := by
  cases h with
  | base h => exact Or.inl h
  | defn h _ => exact Or.inr (List.mem_map.2 ⟨_, h, rfl⟩)

theorem Determined.inv {base : List Name} {defs : List (Name × List Expr)} (hn : (defs.map Prod.fst).Nodup)
    (hb : ∀ s ∈ base, s ∉ defs.map Prod.fst) {n : Name} {l : List Expr} (hm : (n, l) ∈ defs) (h : Determined base defs n) :
    ∀ e ∈ l, ∀ s ∈ e.free, Determined base defs s := by
  cases h with
  | base h => exact absurd (List.mem_map.2 ⟨_, hm, rfl⟩) (hb n h)
  | defn h h' =>
    next l' =>
    have : (n, l') = (n, l) := List.inj_on_of_nodup_map hn h hm rfl
    cases this
    exact h'

/-! ### The expressions of a rewritten problem -/

theorem flatMap_parts_rw (f : Expr → Expr) (l : List Con) : (l.map (Con.rw f)).flatMap parts = (l.flatMap parts).map f := by
  induction l with
  | nil => rfl
  | cons c l ih => rw [List.map_cons, List.flatMap_cons, List.flatMap_cons, parts_rw, ih, List.map_append]

theorem conRw_eq (f : Expr → Expr) (l : List Con) :
    (l.map fun c => (⟨f c.expr, c.lower.map f, c.upper.map f, c.activator, c.method⟩ : Con)) = l.map (Con.rw f) := rfl

theorem twoSided_comp (f : Expr → Expr) : (Con.twoSided ∘ Con.rw f) = Con.twoSided := by funext c; exact twoSided_rw f c

theorem pathExprs_mapEqs (f : Expr → Expr) (p : Prob) : pathExprs (p.mapEqs f) = (pathExprs p).map f := by
  simp only [pathExprs, Prob.mapEqs, conRw_eq, flatMap_parts_rw, List.map_append, List.map_map, Function.comp_def, List.map_cons,
    List.map_nil]

theorem endExprs_mapEqs (f : Expr → Expr) (p : Prob) : endExprs (p.mapEqs f) = (endExprs p).map f := by
  simp only [endExprs, Prob.mapEqs, conRw_eq, ← List.map_append, flatMap_parts_rw]
  simp

theorem costExprs_mapEqs (f : Expr → Expr) (p : Prob) : costExprs (p.mapEqs f) = (costExprs p).map f := by
  simp only [costExprs, Prob.mapEqs, conRw_eq, ← List.map_append, List.filter_map, twoSided_comp, flatMap_parts_rw]
  simp

theorem pathExprs_subsAll (x : Name) (v : Expr) (p : Prob) : pathExprs (p.subsAll x v) = (pathExprs p).map (Expr.subs x v) := by
  rw [← pathExprs_mapEqs, subsAll_eq]; rfl

theorem endExprs_subsAll (x : Name) (v : Expr) (p : Prob) : endExprs (p.subsAll x v) = (endExprs p).map (Expr.subs x v) := by
  rw [← endExprs_mapEqs, subsAll_eq]; rfl

theorem costExprs_subsAll (x : Name) (v : Expr) (p : Prob) : costExprs (p.subsAll x v) = (costExprs p).map (Expr.subs x v) := by
  rw [← costExprs_mapEqs, subsAll_eq]; rfl

theorem mem_pathExprs {p : Prob} {c : Con} {e : Expr} (hc : c ∈ p.path) (he : e ∈ parts c) : e ∈ pathExprs p := by
  simp only [pathExprs, List.mem_append, List.mem_flatMap]
  exact Or.inl (Or.inr ⟨c, hc, he⟩)

theorem mem_endExprs {p : Prob} {c : Con} {e : Expr} (hc : c ∈ p.initial ++ p.terminal) (he : e ∈ parts c) : e ∈ endExprs p := by
  simp only [endExprs, List.mem_append, List.mem_flatMap]
  exact Or.inl ⟨c, by simpa using hc, he⟩

theorem mem_costExprs {p : Prob} {c : Con} {e : Expr} (hc : c ∈ p.initial ++ p.terminal) (ht : c.twoSided = true) (he : e ∈ parts c) :
    e ∈ costExprs p := by
  simp only [costExprs, List.mem_append, List.mem_flatMap, List.mem_filter]
  exact Or.inl ⟨c, ⟨by simpa using hc, ht⟩, he⟩

/-! ### Between preprocessing and the elimination of switches -/

/-- The names are in scope; `T` is time as long as it is not a state, `D` are the switches, and `P` tells which symbols the costs at
the ends may use. -/
structure Mid (P : Name → Prop) (T D : List Name) (p : Prob) : Prop where
  path : ∀ e ∈ pathExprs p, Uses e (fixedNames p ++ p.controls ++ T ++ D)
  ends : ∀ e ∈ endExprs p, Uses e (fixedNames p ++ p.controls ++ qds p ++ p.constraintParams ++ T ++ D)
  costs : ∀ e ∈ costExprs p, ∀ s ∈ e.free, P s
  names : p.switches.map Switch.name = D
  switch : ∀ w ∈ p.switches, Uses w.symFunc (fixedNames p ++ p.controls ++ T)
  flat : ∀ w ∈ p.switches, ∀ s ∈ w.symFunc.free, s ∉ D
  table : ∀ w ∈ p.switches, P w.name → ∀ s ∈ w.symFunc.free, P s
  bounds : ∀ c ∈ p.path, c.method = .epstrig → ∀ e ∈ c.lower.toList ++ c.upper.toList, Uses e (fixedNames p ++ T)
  activators : ∀ c ∈ p.path, c.method = .epstrig → ∀ e ∈ c.activator.toList, Uses e (fixedNames p ++ T ++ D)
  noControl : ∀ u ∈ p.controls, ¬ P u ∧ u ∉ fixedNames p ++ T
  noTrig : ∀ n, ¬ P (trigName n) ∧ trigName n ∉ D ∧ trigName n ∉ fixedNames p ++ T
  apart : ∀ s ∈ fixedNames p ++ T, s ∉ D
  consts : ∀ k ∈ p.constants, P k
  only : ∀ s, P s → s ∈ fixedNames p ++ T ++ qds p ++ D
  start : p.costates = [] ∧ p.coparameters = [] ∧ p.controlLaw = []
  sympified : p.sympified = true

/-- The symbols that costs at the ends may use after preprocessing. -/
def CostName (o : Opts) (p : Prob) (s : Name) : Prop :=
  Determined (known o p ++ qds p) (quantityDefs p ++ switchDefs p) s ∧ s ∉ qtys p

theorem defs_names (p : Prob) : (quantityDefs p ++ switchDefs p).map Prod.fst = qtys p ++ swts p := by
  simp [quantityDefs, switchDefs, List.map_map, Function.comp_def]

theorem mem_quantityDefs {p : Prob} {d : Quantity} (h : d ∈ p.quantities) : (d.name, [d.expr]) ∈ quantityDefs p :=
  List.mem_map.2 ⟨d, h, rfl⟩

theorem mem_switchDefs {p : Prob} {w : Switch} (h : w ∈ p.switches) :
    (w.name, w.tol :: (w.functions ++ w.conditions.flatten)) ∈ switchDefs p := List.mem_map.2 ⟨w, h, rfl⟩

theorem pre_mid {o : Opts} {p p1 : Prob} (hp : WellScoped o p) (h : preprocess p = .ok p1) :
    Mid (CostName o p) (if o.momentumShift then [p.ind] else []) (swts p) p1 := by
  obtain ⟨f, hf⟩ := preprocess_ok hp.acyclic h
  have hnd := hp.names
  have hquads : p1.quads = p.quads.map fun d => ⟨d.name, f d.eom⟩ := by have := congrArg Prob.quads hf.eqs; exact this
  have hparams : p1.parameters = p.parameters := by have := congrArg Prob.parameters hf.eqs; exact this
  have hcps : p1.constraintParams = p.constraintParams := by have := congrArg Prob.constraintParams hf.eqs; exact this
  have hsts : sts p1 = sts p := by rw [sts, hf.states, List.map_map]; rfl
  have hqds : qds p1 = qds p := by rw [qds, hquads, List.map_map]; rfl
  have hpath : pathExprs p1 = (pathExprs p).map f := by
    have h1 : pathExprs p1 = pathExprs p1.dropQuantities := rfl
    rw [h1, hf.eqs, pathExprs_mapEqs]; rfl
  have hends : endExprs p1 = (endExprs p).map f := by
    have h1 : endExprs p1 = endExprs p1.dropQuantities := rfl
    rw [h1, hf.eqs, endExprs_mapEqs]; rfl
  have hcosts : costExprs p1 = (costExprs p).map f := by
    have h1 : costExprs p1 = costExprs p1.dropQuantities := rfl
    rw [h1, hf.eqs, costExprs_mapEqs]; rfl
  have hfix : ∀ s, s ∈ fixedNames p1 ++ (if o.momentumShift then [p.ind] else []) ↔ s ∈ known o p := by
    intro s
    rw [fixedNames, hsts, hparams, hf.constants, known]
  have hgone : ∀ e, ∀ s ∈ (f e).free, s ∉ qtys p := by
    intro e s hs
    have := hf.elim.gone e s hs
    rwa [defsQ_names] at this
  -- classes of names closed under the definitions of quantities
  have hclosed : ∀ l : List Name, (∀ s ∈ known o p ++ p.controls ++ qtys p, s ∈ l) → ∀ e : Expr, Uses e l → Uses (f e) l := by
    intro l hl e he
    refine hf.elim.closed (· ∈ l) ?_ e he
    intro d hd _ s hs
    obtain ⟨d0, h0, rfl⟩ := List.mem_map.1 hd
    exact hl s (hp.quantities d0 h0 s hs)
  have hN : (known o p ++ qds p).Disjoint (qtys p ++ swts p) ∧ (qtys p ++ swts p).Nodup ∧ (qtys p).Nodup ∧
      (known o p).Disjoint (qtys p) := by
    simp only [List.nodup_append, List.Disjoint, List.mem_append] at hnd ⊢
    refine ⟨?_, ⟨hnd.1.2.1, hnd.2.1, fun a ha b hb => hnd.2.2 a (Or.inr ha) b hb⟩, hnd.1.2.1, ?_⟩
    · rintro s (hs | hs) (h1 | h1)
      · exact hnd.1.2.2 s (Or.inl (Or.inl hs)) s h1 rfl
      · exact hnd.2.2 s (Or.inl (Or.inl (Or.inl hs))) s h1 rfl
      · exact hnd.1.2.2 s (Or.inr hs) s h1 rfl
      · exact hnd.2.2 s (Or.inl (Or.inr hs)) s h1 rfl
    · intro s hs h1
      exact hnd.1.2.2 s (Or.inl (Or.inl hs)) s h1 rfl
  have hdet : ∀ e : Expr, (∀ s ∈ e.free, Determined (known o p ++ qds p) (quantityDefs p ++ switchDefs p) s) →
      ∀ s ∈ (f e).free, CostName o p s := by
    intro e he s hs
    refine ⟨hf.elim.closed _ ?_ e he s hs, hgone e s hs⟩
    intro d hd hP x hx
    obtain ⟨d0, h0, rfl⟩ := List.mem_map.1 hd
    exact hP.inv (by rw [defs_names]; exact hN.2.1) (fun s hs h1 => hN.1 hs (by rwa [defs_names] at h1))
      (List.mem_append_left _ (mem_quantityDefs h0)) d0.expr (by simp) x hx
  have hmem : ∀ s, CostName o p s → s ∈ known o p ++ qds p ++ swts p := by
    rintro s ⟨h1, h2⟩
    rcases h1.mem with h1 | h1
    · exact List.mem_append_left _ h1
    · rw [defs_names, List.mem_append] at h1
      exact List.mem_append_right _ (h1.resolve_left h2)
  refine ⟨?_, ?_, ?_, ?_, ?_, ?_, ?_, ?_, ?_, ?_, ?_, ?_, ?_, ?_, ?_, hf.sympified⟩
  · intro e he s hs
    rw [hpath] at he
    obtain ⟨e0, h0, rfl⟩ := List.mem_map.1 he
    have h1 := hclosed _ (fun s hs => by simp only [List.mem_append] at hs ⊢; tauto) e0 (hp.path e0 h0) s hs
    have h2 := hgone e0 s hs
    have h3 := (hfix s).2
    rw [hf.controls]
    simp only [List.mem_append] at h1 h3 ⊢
    tauto
  · intro e he s hs
    rw [hends] at he
    obtain ⟨e0, h0, rfl⟩ := List.mem_map.1 he
    have h1 := hclosed _ (fun s hs => by simp only [List.mem_append] at hs ⊢; tauto) e0 (hp.ends e0 h0) s hs
    have h2 := hgone e0 s hs
    have h3 := (hfix s).2
    rw [hf.controls, hqds, hcps]
    simp only [List.mem_append] at h1 h3 ⊢
    tauto
  · intro e he s hs
    rw [hcosts] at he
    obtain ⟨e0, h0, rfl⟩ := List.mem_map.1 he
    exact hdet e0 (hp.costs e0 h0) s hs
  · rw [hf.switches, List.map_map]; rfl
  · intro w hw s hs
    rw [hf.switches] at hw
    obtain ⟨w0, h0, rfl⟩ := List.mem_map.1 hw
    have h1 := hclosed _ (fun s hs => hs) _ (fun s hs => by
      obtain ⟨e, he, h1⟩ := free_rashsFunc hs
      exact hp.switches w0 h0 e he s h1) s hs
    have h2 := hgone _ s hs
    have h3 := (hfix s).2
    rw [hf.controls]
    simp only [List.mem_append] at h1 h3 ⊢
    tauto
  · intro w hw s hs hD
    rw [hf.switches] at hw
    obtain ⟨w0, h0, rfl⟩ := List.mem_map.1 hw
    have h1 := hclosed _ (fun s hs => hs) _ (fun s hs => by
      obtain ⟨e, he, h1⟩ := free_rashsFunc hs
      exact hp.switches w0 h0 e he s h1) s hs
    simp only [List.nodup_append, List.mem_append] at hnd h1
    exact hnd.2.2 s (by tauto) s hD rfl
  · intro w hw hP
    rw [hf.switches] at hw
    obtain ⟨w0, h0, rfl⟩ := List.mem_map.1 hw
    refine hdet _ fun s hs => ?_
    obtain ⟨e, he, h1⟩ := free_rashsFunc hs
    have hP : CostName o p w0.name := hP
    exact hP.1.inv (by rw [defs_names]; exact hN.2.1) (fun s hs h1 => hN.1 hs (by rwa [defs_names] at h1))
      (List.mem_append_right _ (mem_switchDefs h0)) e he s h1
  · intro c hc hm e he s hs
    rw [hfix]
    rw [hf.path] at hc
    obtain ⟨c0, h0, rfl⟩ := List.mem_map.1 hc
    have hb := hp.bounds c0 h0 hm
    have he : ∃ e0 ∈ c0.lower.toList ++ c0.upper.toList, e = f e0 := by
      obtain ⟨ex, l0, u0, ac, m0⟩ := c0
      cases l0 <;> cases u0 <;> simp [Con.rw] at he ⊢ <;> tauto
    obtain ⟨e0, he0, rfl⟩ := he
    have h1 : Determined (known o p) (quantityDefs p) s := by
      refine hf.elim.closed _ ?_ e0 (hb e0 he0) s hs
      intro d hd hP x hx
      obtain ⟨d0, h0, rfl⟩ := List.mem_map.1 hd
      have hq : (quantityDefs p).map Prod.fst = qtys p := by simp [quantityDefs, List.map_map, Function.comp_def]
      exact hP.inv (by rw [hq]; exact hN.2.2.1) (fun s hs h1 => hN.2.2.2 hs (by rwa [hq] at h1))
        (mem_quantityDefs h0) d0.expr (by simp) x hx
    rcases h1.mem with h1 | h1
    · exact h1
    · exact absurd (by simpa [quantityDefs, List.map_map, Function.comp_def] using h1) (hgone e0 s hs)
  · intro c hc hm e he s hs
    rw [hf.path] at hc
    obtain ⟨c0, h0, rfl⟩ := List.mem_map.1 hc
    have := hp.activators c0 h0 hm e he s hs
    have h3 := (hfix s).2
    simp only [List.mem_append] at this h3 ⊢
    tauto
  · intro u hu
    rw [hf.controls] at hu
    have h3 := (hfix u)
    simp only [List.nodup_append, List.mem_append] at hnd
    refine ⟨fun hP => ?_, fun h1 => ?_⟩
    · have := hmem u hP
      simp only [List.mem_append] at this
      rcases this with (h1 | h1) | h1
      · exact hnd.1.1.1.2.2 u h1 u hu rfl
      · exact hnd.1.1.2.2 u (Or.inr hu) u h1 rfl
      · exact hnd.2.2 u (Or.inl (Or.inl (Or.inr hu))) u h1 rfl
    · exact hnd.1.1.1.2.2 u (h3.1 h1) u hu rfl
  · intro n
    have ht := hp.trig n
    simp only [List.mem_append, not_or] at ht
    refine ⟨fun hP => ?_, ht.2, fun h1 => ht.1.1.1.1 ((hfix _).1 h1)⟩
    have := hmem _ hP
    simp only [List.mem_append] at this
    tauto
  · intro s hs hD
    rw [hfix] at hs
    exact hN.1 (List.mem_append_left _ hs) (List.mem_append_right _ hD)
  · intro k hk
    rw [hf.constants] at hk
    have hk' : k ∈ known o p := by simp [known, hk]
    exact ⟨.base (List.mem_append_left _ hk'), fun h1 => hN.2.2.2 hk' h1⟩
  · intro s hP
    have := hmem s hP
    have h3 := (hfix s).2
    rw [hqds]
    simp only [List.mem_append] at this h3 ⊢
    tauto
  · obtain ⟨s1, s2, s3⟩ := hp.start
    have h1 : p1.costates = p.costates.map fun d => ⟨d.name, f d.eom⟩ := by have := congrArg Prob.costates hf.eqs; exact this
    have h2 : p1.coparameters = p.coparameters.map fun d => ⟨d.name, f d.eom⟩ := by
      have := congrArg Prob.coparameters hf.eqs; exact this
    have h3 : p1.controlLaw = p.controlLaw := by have := congrArg Prob.controlLaw hf.eqs; exact this
    rw [h1, h2, h3, s1, s2, s3]
    exact ⟨rfl, rfl, rfl⟩

/-! ### The steps up to the dual problem -/

theorem momentumShift_fields {p p' : Prob} (h : momentumShift p = .ok p') :
    p' = { p with states := p.states ++ [⟨p.ind, 1⟩], ind := "_" ++ p.ind, symmetries := p'.symmetries, chain := p'.chain } := by
  rw [momentumShift] at h
  split at h
  · cases h
  · cases h; rfl

theorem mid_shift {P : Name → Prop} {D : List Name} {p p' : Prob} (h : Mid P [p.ind] D p) (hs : momentumShift p = .ok p') :
    Mid P [] D p' := by
  rw [momentumShift_fields hs]
  generalize p'.symmetries = sy
  generalize p'.chain = ch
  have hK : ∀ s, s ∈ fixedNames p ++ [p.ind] ↔ s ∈ fixedNames { p with states := p.states ++ [⟨p.ind, 1⟩], ind := "_" ++ p.ind, symmetries := sy, chain := ch } ++ [] := by
    intro s
    simp only [fixedNames, sts, List.map_append, List.map_cons, List.map_nil, List.mem_append, List.append_nil]
    tauto
  refine ⟨?_, ?_, h.costs, h.names, ?_, h.flat, h.table, ?_, ?_, ?_, ?_, ?_, h.consts, ?_, h.start, h.sympified⟩
  · intro e he s hs
    have he : e ∈ pathExprs p ∨ e = 1 := by
      simp only [pathExprs, List.map_append, List.map_cons, List.map_nil, List.mem_append, List.mem_singleton] at he ⊢
      tauto
    rcases he with he | rfl
    · have h1 := h.path e he s hs
      have h2 := hK s
      simp only [List.mem_append] at h1 h2 ⊢
      tauto
    · cases hs
  · intro e he s hs
    have h1 := h.ends e he s hs
    have h2 := hK s
    simp only [List.mem_append] at h1 h2 ⊢
    have h3 : s ∈ qds p ↔ s ∈ qds { p with states := p.states ++ [⟨p.ind, 1⟩], ind := "_" ++ p.ind, symmetries := sy, chain := ch } := Iff.rfl
    tauto
  · intro w hw s hs
    have h1 := h.switch w hw s hs
    have h2 := hK s
    simp only [List.mem_append] at h1 h2 ⊢
    tauto
  · intro c hc hm e he s hs
    exact (hK s).1 (h.bounds c hc hm e he s hs)
  · intro c hc hm e he s hs
    have h1 := h.activators c hc hm e he s hs
    have h2 := hK s
    simp only [List.mem_append] at h1 h2 ⊢
    tauto
  · intro u hu
    exact ⟨(h.noControl u hu).1, fun h1 => (h.noControl u hu).2 ((hK u).2 h1)⟩
  · intro n
    exact ⟨(h.noTrig n).1, (h.noTrig n).2.1, fun h1 => (h.noTrig n).2.2 ((hK _).2 h1)⟩
  · intro s hs
    exact h.apart s ((hK s).2 hs)
  · intro s hs
    have h1 := h.only s hs
    have h2 := hK s
    have h3 : s ∈ qds p ↔ s ∈ qds { p with states := p.states ++ [⟨p.ind, 1⟩], ind := "_" ++ p.ind, symmetries := sy, chain := ch } := Iff.rfl
    simp only [List.mem_append] at h1 h2 ⊢
    tauto

theorem mem_erase_path {l : List Con} {i : Nat} {c : Con} (h : c ∈ l.eraseIdx i) : c ∈ l := List.mem_of_mem_eraseIdx h

theorem mem_consAt {p : Prob} {loc i : Nat} {c : Con} (h : (p.consAt loc)[i]? = some c) :
    (loc = 1 → c ∈ p.path) ∧ (loc = 0 ∨ loc = 2 → c ∈ p.initial ++ p.terminal) := by
  have := List.mem_of_getElem? h
  refine ⟨fun hl => by rw [hl] at this; exact this, fun hl => ?_⟩
  rcases hl with hl | hl <;> rw [hl] at this
  · exact List.mem_append_left _ this
  · exact List.mem_append_right _ this

theorem mem_parts {c : Con} {lo hi e : Expr} (hlo : c.lower = some lo) (hhi : c.upper = some hi) (he : e = c.expr ∨ e = lo ∨ e = hi) :
    e ∈ parts c := by
  rw [parts, hlo, hhi]
  rcases he with rfl | rfl | rfl <;> simp

theorem mid_utm {P : Name → Prop} {T D : List Name} {p p' : Prob} (h : Mid P T D p) (hu : utm p = .ok p') : Mid P T D p' := by
  obtain ⟨loc, i, c, k, a, lo, hi, hl, hc, hm, ha, hk, rfl, hlo, hhi, rfl⟩ := utm_inv hu
  have htwo : c.twoSided = true := twoSided_iff.2 ⟨lo, hi, hlo, hhi⟩
  have hterm : ∀ s, s ∈ (utmTerm (sym k) c.expr lo hi).free → s = k ∨ ∃ e ∈ parts c, s ∈ e.free := by
    intro s hs
    rcases free_utmTerm _ _ _ _ s hs with h1 | h1 | h1 | h1
    · left; simpa [free] using h1
    · exact Or.inr ⟨_, mem_parts hlo hhi (Or.inl rfl), h1⟩
    · exact Or.inr ⟨_, mem_parts hlo hhi (Or.inr (Or.inl rfl)), h1⟩
    · exact Or.inr ⟨_, mem_parts hlo hhi (Or.inr (Or.inr rfl)), h1⟩
  have hkk : k ∈ fixedNames p := by simp [fixedNames, hk]
  have hpath1 : ∀ c' ∈ (if loc = 1 then p.path.eraseIdx i else p.path), c' ∈ p.path := by
    intro c' h1
    split at h1
    · exact List.mem_of_mem_eraseIdx h1
    · exact h1
  have hini1 : ∀ c' ∈ (if loc = 0 then p.initial.eraseIdx i else p.initial), c' ∈ p.initial := by
    intro c' h1
    split at h1
    · exact List.mem_of_mem_eraseIdx h1
    · exact h1
  have hter1 : ∀ c' ∈ (if loc = 2 then p.terminal.eraseIdx i else p.terminal), c' ∈ p.terminal := by
    intro c' h1
    split at h1
    · exact List.mem_of_mem_eraseIdx h1
    · exact h1
  refine ⟨?_, ?_, ?_, h.names, h.switch, h.flat, h.table, fun c' h' => h.bounds c' (hpath1 c' h'), fun c' h' => h.activators c' (hpath1 c' h'),
    h.noControl, h.noTrig, h.apart, h.consts, h.only, h.start, h.sympified⟩
  · intro e he s hs
    simp only [pathExprs, List.mem_append, List.mem_flatMap, List.mem_singleton] at he
    have old : e ∈ pathExprs p → s ∈ fixedNames p ++ p.controls ++ T ++ D := fun h1 => h.path e h1 s hs
    rcases he with ((he | he) | ⟨c', hc', he⟩) | rfl
    · exact old (by simp only [pathExprs, List.mem_append]; tauto)
    · exact old (by simp only [pathExprs, List.mem_append]; tauto)
    · exact old (mem_pathExprs (hpath1 c' hc') he)
    · split at hs
      · next hloc =>
        have hs : s ∈ p.costPath.free ++ (utmTerm (sym k) c.expr lo hi).free := hs
        rcases List.mem_append.1 hs with hs | hs
        · exact h.path p.costPath (by simp [pathExprs]) s hs
        · rcases hterm s hs with rfl | ⟨e, he, hs⟩
          · change s ∈ fixedNames p ++ p.controls ++ T ++ D
            simp only [List.mem_append]; tauto
          · exact h.path e (mem_pathExprs ((mem_consAt hc).1 hloc) he) s hs
      · exact h.path p.costPath (by simp [pathExprs]) s hs
  · intro e he s hs
    simp only [endExprs, List.mem_append, List.mem_flatMap, List.mem_cons, List.not_mem_nil, or_false] at he
    have add : ∀ cost : Expr, cost ∈ endExprs p → (loc = 0 ∨ loc = 2) → s ∈ (cost + utmTerm (sym k) c.expr lo hi).free →
        s ∈ fixedNames p ++ p.controls ++ qds p ++ p.constraintParams ++ T ++ D := by
      intro cost hcost hloc h1
      have h1 : s ∈ cost.free ++ (utmTerm (sym k) c.expr lo hi).free := h1
      rcases List.mem_append.1 h1 with h1 | h1
      · exact h.ends cost hcost s h1
      · rcases hterm s h1 with rfl | ⟨e, he, h1⟩
        · simp only [List.mem_append]; tauto
        · exact h.ends e (mem_endExprs ((mem_consAt hc).2 hloc) he) s h1
    rcases he with ⟨c', hc', he⟩ | rfl | rfl
    · refine h.ends e (mem_endExprs (c := c') ?_ he) s hs
      rcases hc' with h1 | h1
      · exact List.mem_append_left _ (hini1 c' h1)
      · exact List.mem_append_right _ (hter1 c' h1)
    · split at hs
      · next hloc => exact add _ (by simp [endExprs]) (Or.inl hloc) hs
      · exact h.ends p.costInitial (by simp [endExprs]) s hs
    · split at hs
      · next hloc => exact add _ (by simp [endExprs]) (Or.inr hloc) hs
      · exact h.ends p.costTerminal (by simp [endExprs]) s hs
  · intro e he s hs
    simp only [costExprs, List.mem_append, List.mem_flatMap, List.mem_filter, List.mem_cons, List.not_mem_nil, or_false] at he
    have add : ∀ cost : Expr, cost ∈ costExprs p → (loc = 0 ∨ loc = 2) → s ∈ (cost + utmTerm (sym k) c.expr lo hi).free → P s := by
      intro cost hcost hloc h1
      have h1 : s ∈ cost.free ++ (utmTerm (sym k) c.expr lo hi).free := h1
      rcases List.mem_append.1 h1 with h1 | h1
      · exact h.costs cost hcost s h1
      · rcases hterm s h1 with rfl | ⟨e, he, h1⟩
        · exact h.consts s hk
        · exact h.costs e (mem_costExprs ((mem_consAt hc).2 hloc) htwo he) s h1
    rcases he with ⟨c', ⟨hc', ht'⟩, he⟩ | rfl | rfl
    · refine h.costs e (mem_costExprs (c := c') ?_ ht' he) s hs
      rcases hc' with h1 | h1
      · exact List.mem_append_left _ (hini1 c' h1)
      · exact List.mem_append_right _ (hter1 c' h1)
    · split at hs
      · next hloc => exact add _ (by simp [costExprs]) (Or.inl hloc) hs
      · exact h.costs p.costInitial (by simp [costExprs]) s hs
    · split at hs
      · next hloc => exact add _ (by simp [costExprs]) (Or.inr hloc) hs
      · exact h.costs p.costTerminal (by simp [costExprs]) s hs

theorem mem_set_of_ne {l : List Name} {k : Nat} {u n s : Name} (hk : l[k]? = some u) (hs : s ∈ l) (hne : s ≠ u) : s ∈ l.set k n := by
  obtain ⟨j, hj, rfl⟩ := List.mem_iff_getElem.1 hs
  have hne' : k ≠ j := by
    rintro rfl
    rw [List.getElem?_eq_getElem hj] at hk
    exact hne (Option.some.inj hk)
  rw [List.mem_iff_getElem]
  exact ⟨j, by simpa using hj, by simp [hne']⟩

theorem mem_set_or {l : List Name} {k : Nat} {n s : Name} (h : s ∈ l.set k n) : s ∈ l ∨ s = n := List.mem_or_eq_of_mem_set h

theorem mid_eps {P : Name → Prop} {D : List Name} {p p' : Prob} (h : Mid P [] D p) (hu : epsTrig p = .ok p') : Mid P [] D p' := by
  obtain ⟨i, c, k, u, a, lo, hi, hc, hm, he, hk, ha, hlo, hhi, rfl⟩ := epsTrig_inv hu
  have hcm : c ∈ p.path := List.mem_of_getElem? hc
  have hum : u ∈ p.controls := List.mem_of_getElem? hk
  have hb : ∀ s, s ∈ lo.free ∨ s ∈ hi.free → s ∈ fixedNames p := by
    rintro s (h1 | h1)
    · simpa using h.bounds c hcm hm lo (by simp [hlo]) s h1
    · simpa using h.bounds c hcm hm hi (by simp [hhi]) s h1
  have hset : trigName u ∈ p.controls.set k (trigName u) := by
    have hk' : k < p.controls.length := by
      by_contra hlt
      rw [List.getElem?_eq_none (not_lt.1 hlt)] at hk
      cases hk
    exact List.mem_iff_getElem.2 ⟨k, by simpa using hk', by simp⟩
  -- substitution keeps the scope
  have key : ∀ (e : Expr) (more : List Name), Uses e (fixedNames p ++ p.controls ++ more) →
      Uses (Expr.subs u (trigExpr u lo hi) e) (fixedNames p ++ p.controls.set k (trigName u) ++ more) := by
    intro e more hE s hs
    rcases mem_free_subs.1 hs with ⟨h1, h2⟩ | ⟨h1, -⟩
    · have := hE s h1
      have h3 := fun h' => mem_set_of_ne (n := trigName u) hk (s := s) h' h2
      simp only [List.mem_append] at this ⊢
      tauto
    · rw [free_trigExpr] at h1
      have h3 := hb s
      simp only [List.mem_append]
      rcases h1 with h1 | h1 | rfl
      · exact Or.inl (Or.inl (h3 (Or.inl h1)))
      · exact Or.inl (Or.inl (h3 (Or.inr h1)))
      · exact Or.inl (Or.inr hset)
  have same : ∀ e : Expr, u ∉ e.free → ∀ s ∈ (Expr.subs u (trigExpr u lo hi) e).free, s ∈ e.free := by
    intro e hE s hs
    rcases mem_free_subs.1 hs with ⟨h1, -⟩ | ⟨-, h2⟩
    · exact h1
    · exact absurd h2 hE
  have hfix : fixedNames ((let p2 := ({ p with
              path := p.path.eraseIdx i
              controls := p.controls.set k (trigName u)
              costPath := p.costPath + (-a) * fn .cos (sym (trigName u)) } : Prob).subsAll u (trigExpr u lo hi)
          { p2 with chain := p2.chain ++ [.epsTrig k lo hi p2.ind (p2.states.map Dyn.name) p2.parameters
              p2.constants] } : Prob)) = fixedNames p := by
    simp [fixedNames, sts, Prob.subsAll, Dyn.subs, List.map_map, Function.comp_def]
  have hqds : qds ((let p2 := ({ p with
              path := p.path.eraseIdx i
              controls := p.controls.set k (trigName u)
              costPath := p.costPath + (-a) * fn .cos (sym (trigName u)) } : Prob).subsAll u (trigExpr u lo hi)
          { p2 with chain := p2.chain ++ [.epsTrig k lo hi p2.ind (p2.states.map Dyn.name) p2.parameters
              p2.constants] } : Prob)) = qds p := by
    simp [qds, Prob.subsAll, Dyn.subs, List.map_map, Function.comp_def]
  have hsub : ∀ c' ∈ (p.path.eraseIdx i).map (Con.subs u (trigExpr u lo hi)), ∃ c0 ∈ p.path, c' = Con.subs u (trigExpr u lo hi) c0 := by
    intro c' hc'
    obtain ⟨c0, h0, rfl⟩ := List.mem_map.1 hc'
    exact ⟨c0, List.mem_of_mem_eraseIdx h0, rfl⟩
  refine ⟨?_, ?_, ?_, ?_, ?_, ?_, ?_, ?_, ?_, ?_, ?_, ?_, h.consts, ?_, ?_, h.sympified⟩
  · rw [hfix]
    change ∀ e ∈ pathExprs (({ p with
              path := p.path.eraseIdx i
              controls := p.controls.set k (trigName u)
              costPath := p.costPath + (-a) * fn .cos (sym (trigName u)) } : Prob).subsAll u (trigExpr u lo hi)),
      Uses e (fixedNames p ++ p.controls.set k (trigName u) ++ [] ++ D)
    rw [pathExprs_subsAll]
    intro e' he'
    obtain ⟨e, he, rfl⟩ := List.mem_map.1 he'
    simp only [pathExprs, List.mem_append, List.mem_flatMap, List.mem_singleton] at he
    rw [List.append_nil]
    have old : e ∈ pathExprs p → Uses (Expr.subs u (trigExpr u lo hi) e) (fixedNames p ++ p.controls.set k (trigName u) ++ D) :=
      fun h1 => key e D (by have := h.path e h1; simpa using this)
    rcases he with ((he | he) | ⟨c', hc', he⟩) | rfl
    · exact old (by simp only [pathExprs, List.mem_append]; tauto)
    · exact old (by simp only [pathExprs, List.mem_append]; tauto)
    · exact old (mem_pathExprs (List.mem_of_mem_eraseIdx hc') he)
    · intro s hs
      rcases mem_free_subs.1 hs with ⟨h1, h2⟩ | ⟨h1, h2⟩
      · have h1 : s ∈ p.costPath.free ++ ([] ++ a.free ++ [trigName u]) := h1
        simp only [List.mem_append, List.not_mem_nil, false_or, List.mem_singleton] at h1
        rcases h1 with h1 | h1 | rfl
        · have := h.path p.costPath (by simp [pathExprs]) s h1
          have h3 := fun h' => mem_set_of_ne (n := trigName u) hk (s := s) h' h2
          simp only [List.mem_append, List.not_mem_nil] at this ⊢
          tauto
        · have := h.activators c hcm hm a (by simp [ha]) s h1
          simp only [List.mem_append, List.not_mem_nil] at this ⊢
          tauto
        · simp only [List.mem_append]
          exact Or.inl (Or.inr hset)
      · rw [free_trigExpr] at h1
        have h3 := hb s
        simp only [List.mem_append]
        rcases h1 with h1 | h1 | rfl
        · exact Or.inl (Or.inl (h3 (Or.inl h1)))
        · exact Or.inl (Or.inl (h3 (Or.inr h1)))
        · exact Or.inl (Or.inr hset)
  · rw [hfix, hqds]
    change ∀ e ∈ endExprs (({ p with
              path := p.path.eraseIdx i
              controls := p.controls.set k (trigName u)
              costPath := p.costPath + (-a) * fn .cos (sym (trigName u)) } : Prob).subsAll u (trigExpr u lo hi)),
      Uses e (fixedNames p ++ p.controls.set k (trigName u) ++ qds p ++ p.constraintParams ++ [] ++ D)
    rw [endExprs_subsAll]
    intro e' he'
    obtain ⟨e, he, rfl⟩ := List.mem_map.1 he'
    have := key e (qds p ++ p.constraintParams ++ [] ++ D) (by have := h.ends e he; simpa only [List.append_assoc] using this)
    simpa only [List.append_assoc] using this
  · change ∀ e ∈ costExprs (({ p with
              path := p.path.eraseIdx i
              controls := p.controls.set k (trigName u)
              costPath := p.costPath + (-a) * fn .cos (sym (trigName u)) } : Prob).subsAll u (trigExpr u lo hi)), ∀ s ∈ e.free, P s
    rw [costExprs_subsAll]
    intro e' he' s hs
    obtain ⟨e, he, rfl⟩ := List.mem_map.1 he'
    have hP := h.costs e he
    exact hP s (same e (fun h1 => (h.noControl u hum).1 (hP u h1)) s hs)
  · have := h.names
    simpa [Prob.subsAll, Switch.subs, List.map_map, Function.comp_def] using this
  · rw [hfix]
    intro w hw
    obtain ⟨w0, h0, rfl⟩ := List.mem_map.1 hw
    have := key w0.symFunc [] (by have := h.switch w0 h0; simpa using this)
    exact this
  · intro w hw s hs hD
    obtain ⟨w0, h0, rfl⟩ := List.mem_map.1 hw
    rcases mem_free_subs.1 hs with ⟨h1, h2⟩ | ⟨h1, -⟩
    · exact h.flat w0 h0 s h1 hD
    · rw [free_trigExpr] at h1
      rcases h1 with h1 | h1 | rfl
      · exact h.apart s (by simpa using hb s (Or.inl h1)) hD
      · exact h.apart s (by simpa using hb s (Or.inr h1)) hD
      · exact (h.noTrig u).2.1 hD
  · intro w hw hP s hs
    obtain ⟨w0, h0, rfl⟩ := List.mem_map.1 hw
    have hP := h.table w0 h0 hP
    exact hP s (same _ (fun h1 => (h.noControl u hum).1 (hP u h1)) s hs)
  · rw [hfix]
    intro c' hc' hm' e he s hs
    obtain ⟨c0, h0, rfl⟩ := hsub c' hc'
    have he : ∃ e0 ∈ c0.lower.toList ++ c0.upper.toList, e = Expr.subs u (trigExpr u lo hi) e0 := by
      obtain ⟨ex, l0, u0, ac, m0⟩ := c0
      cases l0 <;> cases u0 <;> simp [Con.subs] at he ⊢ <;> tauto
    obtain ⟨e0, he0, rfl⟩ := he
    have h1 := h.bounds c0 h0 hm' e0 he0
    exact h1 s (same e0 (fun h2 => (h.noControl u hum).2 (h1 u h2)) s hs)
  · rw [hfix]
    intro c' hc' hm' e he
    obtain ⟨c0, h0, rfl⟩ := hsub c' hc'
    exact h.activators c0 h0 hm' e he
  · rw [hfix]
    intro v hv
    rcases mem_set_or hv with h1 | rfl
    · exact h.noControl v h1
    · exact ⟨(h.noTrig u).1, (h.noTrig u).2.2⟩
  · rw [hfix]; exact h.noTrig
  · rw [hfix]; exact h.apart
  · rw [hfix, hqds]; exact h.only
  · obtain ⟨h1, h2, h3⟩ := h.start
    refine ⟨?_, ?_, h3⟩
    · simp [Prob.subsAll, h1]
    · simp [Prob.subsAll, h2]

/-- The problem that is given to `Dualize`. -/
structure Ready (q : Prob) : Prop where
  path : ∀ e ∈ pathExprs q, Uses e (fixedNames q ++ q.controls)
  ends : ∀ e ∈ endExprs q, Uses e (fixedNames q ++ q.controls ++ qds q ++ q.constraintParams)
  costs : ∀ e ∈ costExprs q, Uses e (fixedNames q ++ qds q)
  start : q.costates = [] ∧ q.coparameters = [] ∧ q.controlLaw = []
  sympified : q.sympified = true

theorem mid_acyclic {P : Name → Prop} {T D : List Name} {p : Prob} (h : Mid P T D p) : Acyclic (defsS p.switches) := by
  refine ⟨fun _ => 0, ?_⟩
  intro d hd s hs hm
  obtain ⟨w, hw, rfl⟩ := List.mem_map.1 hd
  rw [defsS_names, h.names] at hm
  exact absurd hm (h.flat w hw s hs)

theorem mid_rashs {P : Name → Prop} {D : List Name} {S : Sympy} {p q : Prob} (h : Mid P [] D p)
    (hr : runSteps S (if p.switches.length > 0 then [.rashs] else []) p = .ok q) : Ready q := by
  obtain ⟨f, hf, he⟩ := rashs_step h.sympified (mid_acyclic h) hr
  have hpath : pathExprs q = (pathExprs p).map f := by
    have h1 : pathExprs q = pathExprs q.dropTables := rfl
    rw [h1, hf, pathExprs_mapEqs]; rfl
  have hends : endExprs q = (endExprs p).map f := by
    have h1 : endExprs q = endExprs q.dropTables := rfl
    rw [h1, hf, endExprs_mapEqs]; rfl
  have hcosts : costExprs q = (costExprs p).map f := by
    have h1 : costExprs q = costExprs q.dropTables := rfl
    rw [h1, hf, costExprs_mapEqs]; rfl
  have hstates : q.states = p.states.map fun d => ⟨d.name, f d.eom⟩ := congrArg Prob.states hf
  have hquads : q.quads = p.quads.map fun d => ⟨d.name, f d.eom⟩ := congrArg Prob.quads hf
  have hparams : q.parameters = p.parameters := by have := congrArg Prob.parameters hf; exact this
  have hconsts : q.constants = p.constants := by have := congrArg Prob.constants hf; exact this
  have hcontrols : q.controls = p.controls := by have := congrArg Prob.controls hf; exact this
  have hcps : q.constraintParams = p.constraintParams := by have := congrArg Prob.constraintParams hf; exact this
  have hfix : fixedNames q = fixedNames p := by
    rw [fixedNames, fixedNames, sts, hstates, hparams, hconsts, List.map_map]; rfl
  have hqds : qds q = qds p := by rw [qds, hquads, List.map_map]; rfl
  have hgone : ∀ e, ∀ s ∈ (f e).free, s ∉ D := by
    intro e s hs
    have := he.gone e s hs
    rwa [defsS_names, h.names] at this
  have key : ∀ (e : Expr) (l : List Name), (∀ s ∈ fixedNames p ++ p.controls, s ∈ l) → Uses e (l ++ D) → Uses (f e) l := by
    intro e l hl hE s hs
    have h1 := he.closed (· ∈ l ++ D) (by
      intro d hd _ x hx
      obtain ⟨w, hw, rfl⟩ := List.mem_map.1 hd
      have := h.switch w hw x hx
      rw [List.append_nil] at this
      exact List.mem_append_left _ (hl x this)) e hE s hs
    exact (List.mem_append.1 h1).resolve_right (hgone e s hs)
  refine ⟨?_, ?_, ?_, ?_, ?_⟩
  · rw [hpath, hfix, hcontrols]
    intro e he s hs
    obtain ⟨e0, h0, rfl⟩ := List.mem_map.1 he
    exact key e0 _ (fun s hs => hs) (by have := h.path e0 h0; simpa using this) s hs
  · rw [hends, hfix, hcontrols, hqds, hcps]
    intro e he s hs
    obtain ⟨e0, h0, rfl⟩ := List.mem_map.1 he
    refine key e0 _ (fun s hs => ?_) (by have := h.ends e0 h0; simpa using this) s hs
    simp only [List.mem_append] at hs ⊢
    tauto
  · rw [hcosts, hfix, hqds]
    intro e' he' s hs
    obtain ⟨e0, h0, rfl⟩ := List.mem_map.1 he'
    have hP := he.closed P (by
      intro d hd hPd
      obtain ⟨w, hw, rfl⟩ := List.mem_map.1 hd
      exact h.table w hw hPd) e0 (h.costs e0 h0) s hs
    have h1 := h.only s hP
    have h2 := hgone e0 s hs
    simp only [List.mem_append, List.not_mem_nil, or_false] at h1 ⊢
    tauto
  · obtain ⟨s1, s2, s3⟩ := h.start
    have h1 : q.costates = p.costates.map fun d => ⟨d.name, f d.eom⟩ := congrArg Prob.costates hf
    have h2 : q.coparameters = p.coparameters.map fun d => ⟨d.name, f d.eom⟩ := congrArg Prob.coparameters hf
    have h3 : q.controlLaw = p.controlLaw := by have := congrArg Prob.controlLaw hf; exact this
    rw [h1, h2, h3, s1, s2, s3]
    exact ⟨rfl, rfl, rfl⟩
  · have : q.sympified = p.sympified := by have := congrArg Prob.sympified hf; exact this
    rw [this, h.sympified]

end Beluga.Scope
