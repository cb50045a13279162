import Verif.Symbolic.Problem

/-! # One-sided inequalities are not enforced (C65) -/

namespace Beluga.Sym

open Expr

/-- A boundary constraint with at most one bound, as an equality. -/
def Con.asEquality (c : Con) : Con := if c.twoSided then c else { c with lower := none, upper := none }

/-- The problem without one-sided path constraints, and with one-sided boundary constraints turned into equalities. -/
def Prob.ignore (p : Prob) : Prob := { p with
  initial := p.initial.map Con.asEquality
  path := p.path.filter Con.twoSided
  terminal := p.terminal.map Con.asEquality }

theorem twoSided_asEquality (c : Con) : c.asEquality.twoSided = c.twoSided := by
  rw [Con.asEquality]
  split
  · rfl
  · next h => simp [Con.twoSided] at h ⊢; exact h

theorem twoSided_subs (x : Name) (e : Expr) (c : Con) : (c.subs x e).twoSided = c.twoSided := by
  simp [Con.subs, Con.twoSided]

theorem asEquality_subs (x : Name) (e : Expr) (c : Con) : (c.subs x e).asEquality = c.asEquality.subs x e := by
  rw [Con.asEquality, Con.asEquality, twoSided_subs]
  split
  · rfl
  · simp [Con.subs]

theorem asEquality_none {c : Con} (h : c.lower = none) (h2 : c.upper = none) : c.asEquality = c := by
  rw [Con.asEquality]
  split
  · rfl
  · cases c; cases h; cases h2; rfl

theorem ignore_subsAll (x : Name) (e : Expr) (p : Prob) : (p.subsAll x e).ignore = p.ignore.subsAll x e := by
  have h1 : ∀ l : List Con, (l.map (Con.subs x e)).map Con.asEquality = (l.map Con.asEquality).map (Con.subs x e) := by
    intro l
    simp only [List.map_map]
    exact List.map_congr_left fun c _ => asEquality_subs x e c
  have h2 : ∀ l : List Con, (l.map (Con.subs x e)).filter Con.twoSided = (l.filter Con.twoSided).map (Con.subs x e) := by
    intro l
    rw [List.filter_map]
    congr 1
    exact List.filter_congr fun c _ => twoSided_subs x e c
  simp only [Prob.ignore, Prob.subsAll, h1, h2]

/-- One-sided path constraints have the default method. -/
def Usual (p : Prob) : Prop := ∀ c ∈ p.path, c.twoSided = false → c.method = .utm

/-- The second computation gives what the first gives, without one-sided inequalities. -/
def Sim (a b : Py Prob) : Prop := b = a.map Prob.ignore ∧ ∀ p, a = .ok p → Usual p

theorem Sim.ok {p : Prob} (h : Usual p) : Sim (.ok p) (.ok p.ignore) := ⟨rfl, by rintro _ ⟨⟩; exact h⟩

theorem Sim.error (e : PyErr) : Sim (.error e) (.error e) := ⟨rfl, by rintro _ ⟨⟩⟩

theorem usual_subsAll {x : Name} {e : Expr} {p : Prob} (h : Usual p) : Usual (p.subsAll x e) := by
  intro c hc ht
  obtain ⟨d, hd, rfl⟩ := List.mem_map.1 hc
  rw [twoSided_subs] at ht
  exact h d hd ht

theorem ignore_elimLoop (p : Prob) : ∀ k, (elimLoop p k).ignore = elimLoop p.ignore k ∧ (Usual p → Usual (elimLoop p k))
  | 0 => ⟨rfl, id⟩
  | k + 1 => by
    obtain ⟨h1, h2⟩ := ignore_elimLoop p k
    rw [elimLoop, elimLoop, ← h1]
    have e : (elimLoop p k).ignore.quantities = (elimLoop p k).quantities := rfl
    simp only [e]
    cases (elimLoop p k).quantities[k]? with
    | none => exact ⟨rfl, h2⟩
    | some q => exact ⟨ignore_subsAll _ _ _, fun h => usual_subsAll (h2 h)⟩

theorem ignore_rashsLoop (p : Prob) : ∀ k, (rashsLoop p k).ignore = rashsLoop p.ignore k ∧ (Usual p → Usual (rashsLoop p k))
  | 0 => ⟨rfl, id⟩
  | k + 1 => by
    obtain ⟨h1, h2⟩ := ignore_rashsLoop p k
    rw [rashsLoop, rashsLoop, ← h1]
    have e : (rashsLoop p k).ignore.switches = (rashsLoop p k).switches := rfl
    simp only [e]
    cases (rashsLoop p k).switches[k]? with
    | none => exact ⟨rfl, h2⟩
    | some q => exact ⟨ignore_subsAll _ _ _, fun h => usual_subsAll (h2 h)⟩

theorem sim_preprocess {p : Prob} (h : Usual p) : Sim (preprocess p) (preprocess p.ignore) := by
  rw [preprocess, preprocess, Prob.sympify, Prob.sympify]
  have e : p.ignore.states = p.states := rfl
  rw [e]
  split
  · exact Sim.error _
  · simp only [bind, Except.bind]
    rw [applyQuantities, applyQuantities]
    simp only [Bool.not_true, Bool.false_eq_true, if_false]
    have := ignore_elimLoop { p with
      sympified := true
      quantities := mergeRows (p.quantities.map Quantity.sympify).length (p.quantities.map Quantity.sympify) (p.quantities.map Quantity.sympify).length
      switches := p.switches.map Switch.sympify } (p.quantities.map Quantity.sympify).length
    refine ⟨?_, ?_⟩
    · exact congrArg Except.ok this.1.symm
    · rintro _ ⟨⟩
      exact this.2 h

/-- Searching for something that survives the filter. -/
theorem find_filter {α : Type} {q f : α → Bool} : ∀ l : List α, (∀ a ∈ l, q a = true → f a = true) →
    (l.findIdx? q = none ∧ (l.filter f).findIdx? q = none) ∨
    ∃ i j c, l.findIdx? q = some i ∧ (l.filter f).findIdx? q = some j ∧ l[i]? = some c ∧ (l.filter f)[j]? = some c ∧
      (l.eraseIdx i).filter f = (l.filter f).eraseIdx j
  | [], _ => Or.inl ⟨rfl, rfl⟩
  | a :: l, hq => by
    cases hqa : q a with
    | true =>
      refine Or.inr ⟨0, 0, a, ?_, ?_, rfl, ?_, ?_⟩
      · simp [List.findIdx?_cons, hqa]
      · simp [hq a (by simp) hqa, List.findIdx?_cons, hqa]
      · simp [hq a (by simp) hqa]
      · simp [hq a (by simp) hqa]
    | false =>
      rcases find_filter l (fun b hb => hq b (by simp [hb])) with ⟨h1, h2⟩ | ⟨i, j, c, h1, h2, h3, h4, h5⟩
      · left
        cases hf : f a <;> simp [List.findIdx?_cons, hf, hqa, h1, h2]
      · right
        cases hf : f a with
        | true => exact ⟨i + 1, j + 1, c, by simp [List.findIdx?_cons, hqa, h1], by simp [List.findIdx?_cons, hf, hqa, h2],
            by simpa using h3, by simpa [hf] using h4, by simp [hf, h5]⟩
        | false => exact ⟨i + 1, j, c, by simp [List.findIdx?_cons, hqa, h1], by simp [hf, h2],
            by simpa using h3, by simpa [hf] using h4, by simp [hf, h5]⟩

theorem find_asEquality : ∀ l : List Con, (l.map Con.asEquality).findIdx? isUtm = l.findIdx? isUtm := by
  intro l
  rw [List.findIdx?_map]
  congr 1
  funext c
  simp only [Function.comp, isUtm, twoSided_asEquality]
  congr 2
  rw [Con.asEquality]
  split <;> rfl

theorem sim_momentumShift {p : Prob} (h : Usual p) : Sim (momentumShift p) (momentumShift p.ignore) := by
  rw [momentumShift, momentumShift]
  have e : p.ignore.sympified = p.sympified := rfl
  rw [e]
  split
  · exact Sim.error _
  · exact ⟨rfl, by rintro _ ⟨⟩; exact h⟩

theorem usual_sublist {p p' : Prob} (h : Usual p) (hs : ∀ c ∈ p'.path, c ∈ p.path) : Usual p' :=
  fun c hc => h c (hs c hc)

/-- `EpsTrig` before the substitution. -/
def epsPre (i k : Nat) (u : Name) (a : Expr) (p : Prob) : Prob := { p with
  path := p.path.eraseIdx i
  controls := p.controls.set k ("_" ++ u ++ "_trig")
  costPath := p.costPath + (-a) * fn .cos (sym ("_" ++ u ++ "_trig")) }

/-- The substitution and the mapper. -/
def epsPost (u : Name) (lo hi : Expr) (k : Nat) (p : Prob) : Prob :=
  let p2 := p.subsAll u ((hi - lo) / 2 * fn .sin (sym ("_" ++ u ++ "_trig")) + (hi + lo) / 2)
  { p2 with chain := p2.chain ++ [.epsTrig k lo hi p2.ind (p2.states.map Dyn.name) p2.parameters p2.constants] }

theorem sim_epsTrig {p : Prob} (h : Usual p) : Sim (epsTrig p) (epsTrig p.ignore) := by
  rw [epsTrig, epsTrig]
  have e : p.ignore.sympified = p.sympified := rfl
  have e1 : p.ignore.controls = p.controls := rfl
  have e2 : p.ignore.path = p.path.filter Con.twoSided := rfl
  rw [e, e1, e2]
  split
  · exact Sim.error _
  · rcases find_filter (q := fun c : Con => decide (c.method = Meth.epstrig)) (f := Con.twoSided) p.path (by
      intro c hc hm
      by_contra ht
      rw [h c hc (by simpa using ht)] at hm
      simp at hm) with ⟨h1, h2⟩ | ⟨i, j, c, h1, h2, h3, h4, h5⟩
    · simp only [h1, h2]
      exact Sim.error _
    · simp only [h1, h2, h3, h4]
      cases hk : p.controls.findIdx? fun u => c.expr = sym u with
      | none => exact Sim.error _
      | some k =>
        simp only
        cases p.controls[k]? with
        | none => exact Sim.error _
        | some u =>
          cases c.activator with
          | none => exact Sim.error _
          | some a =>
            cases c.lower with
            | none => exact Sim.error _
            | some lo =>
              cases c.upper with
              | none => exact Sim.error _
              | some hi =>
                change Sim (.ok (epsPost u lo hi k (epsPre i k u a p))) (.ok (epsPost u lo hi k (epsPre j k u a p.ignore)))
                have e3 : epsPre j k u a p.ignore = (epsPre i k u a p).ignore := by
                  simp only [epsPre, Prob.ignore, h5]
                have e4 : ∀ q : Prob, epsPost u lo hi k q.ignore = (epsPost u lo hi k q).ignore := by
                  intro q
                  simp only [epsPost, ← ignore_subsAll]
                  rfl
                rw [e3, e4]
                exact Sim.ok (usual_subsAll (p := epsPre i k u a p)
                  (usual_sublist h fun c hc => List.mem_of_mem_eraseIdx hc))

theorem sim_utm {p : Prob} (h : Usual p) : Sim (utm p) (utm p.ignore) := by
  have e : p.ignore.sympified = p.sympified := rfl
  have e0 : p.ignore.initial = p.initial.map Con.asEquality := rfl
  have e1 : p.ignore.path = p.path.filter Con.twoSided := rfl
  have e2 : p.ignore.terminal = p.terminal.map Con.asEquality := rfl
  have hu : ∀ a : Con, isUtm a = true → a.twoSided = true := by
    intro a ha
    simp [isUtm] at ha
    exact ha.2
  have hk : ∀ {l : List Con} {i : Nat}, l.findIdx? isUtm = some i → ∃ c, l[i]? = some c ∧ c.asEquality = c := by
    intro l i hi
    obtain ⟨hlt, hi, -⟩ := List.findIdx?_eq_some_iff_getElem.1 hi
    refine ⟨l[i], List.getElem?_eq_getElem hlt, ?_⟩
    rw [Con.asEquality, if_pos (hu _ hi)]
  rw [utm, utm, e]
  split
  · exact Sim.error _
  · have hf : (∃ i c, utmFind p = some (0, i) ∧ utmFind p.ignore = some (0, i) ∧ p.initial[i]? = some c ∧ c.asEquality = c) ∨
        (∃ i j c, utmFind p = some (1, i) ∧ utmFind p.ignore = some (1, j) ∧ p.path[i]? = some c ∧
          (p.path.filter Con.twoSided)[j]? = some c ∧
          (p.path.eraseIdx i).filter Con.twoSided = (p.path.filter Con.twoSided).eraseIdx j) ∨
        (∃ i c, utmFind p = some (2, i) ∧ utmFind p.ignore = some (2, i) ∧ p.terminal[i]? = some c ∧ c.asEquality = c) ∨
        utmFind p = none ∧ utmFind p.ignore = none := by
      rw [utmFind, utmFind, e0, e1, e2, find_asEquality, find_asEquality]
      cases hi : p.initial.findIdx? isUtm with
      | some i =>
        obtain ⟨c, h1, h2⟩ := hk hi
        exact Or.inl ⟨i, c, rfl, rfl, h1, h2⟩
      | none =>
        rcases find_filter (q := isUtm) (f := Con.twoSided) p.path (fun c _ hc => hu c hc) with
          ⟨h1, h2⟩ | ⟨i, j, c, h1, h2, h3, h4, h5⟩
        · simp only [h1, h2]
          cases ht : p.terminal.findIdx? isUtm with
          | none => exact Or.inr (Or.inr (Or.inr ⟨rfl, rfl⟩))
          | some i =>
            obtain ⟨c, h1, h2⟩ := hk ht
            exact Or.inr (Or.inr (Or.inl ⟨i, c, rfl, rfl, h1, h2⟩))
        · simp only [h1, h2]
          exact Or.inr (Or.inl ⟨i, j, c, rfl, rfl, h3, h4, h5⟩)
    have em : ∀ {l : List Con} {i : Nat} {c : Con}, l[i]? = some c → c.asEquality = c → (l.map Con.asEquality)[i]? = some c := by
      intro l i c h1 h2
      rw [List.getElem?_map, h1, Option.map_some, h2]
    rcases hf with ⟨i, c, f1, f2, h1, h2⟩ | ⟨i, j, c, f1, f2, h3, h4, h5⟩ | ⟨i, c, f1, f2, h1, h2⟩ | ⟨f1, f2⟩
    · simp only [f1, f2, Prob.conList, e0, h1, em h1 h2]
      have e3 : p.ignore.constants = p.constants := rfl
      rw [e3]
      cases c.activator with
      | none => exact Sim.error _
      | some a =>
        cases c.lower with
        | none => exact Sim.error _
        | some lo =>
          cases c.upper with
          | none => exact Sim.error _
          | some hi =>
            simp only
            split
            · refine ⟨?_, ?_⟩
              · simp [Except.map, Prob.ignore, List.eraseIdx_map]
              · rintro _ ⟨⟩
                exact h
            · exact Sim.error _
    · simp only [f1, f2, Prob.conList, e1, h3, h4]
      have e3 : p.ignore.constants = p.constants := rfl
      rw [e3]
      cases c.activator with
      | none => exact Sim.error _
      | some a =>
        cases c.lower with
        | none => exact Sim.error _
        | some lo =>
          cases c.upper with
          | none => exact Sim.error _
          | some hi =>
            simp only
            split
            · refine ⟨?_, ?_⟩
              · simp [Except.map, Prob.ignore, h5]
              · rintro _ ⟨⟩
                exact usual_sublist h fun c hc => List.mem_of_mem_eraseIdx hc
            · exact Sim.error _
    · simp only [f1, f2, Prob.conList, e2, h1, em h1 h2]
      have e3 : p.ignore.constants = p.constants := rfl
      rw [e3]
      cases c.activator with
      | none => exact Sim.error _
      | some a =>
        cases c.lower with
        | none => exact Sim.error _
        | some lo =>
          cases c.upper with
          | none => exact Sim.error _
          | some hi =>
            simp only
            split
            · refine ⟨?_, ?_⟩
              · simp [Except.map, Prob.ignore, List.eraseIdx_map]
              · rintro _ ⟨⟩
                exact h
            · exact Sim.error _
    · simp only [f1, f2]
      exact Sim.error _

theorem sim_rashs {p : Prob} (h : Usual p) : Sim (rashs p) (rashs p.ignore) := by
  rw [rashs, rashs]
  have e : p.ignore.sympified = p.sympified := rfl
  rw [e]
  split
  · exact Sim.error _
  · obtain ⟨h1, h2⟩ := ignore_rashsLoop p p.switches.length
    exact ⟨congrArg Except.ok h1.symm, by rintro _ ⟨⟩; exact h2 h⟩

theorem expr_asEquality (c : Con) : c.asEquality.expr = c.expr := by
  rw [Con.asEquality]
  split <;> rfl

theorem augment_asEquality : ∀ (cost : Expr) (nus : List Name) (cons : List Con),
    augment cost nus (cons.map Con.asEquality) = augment cost nus cons
  | _, [], _ => rfl
  | _, _ :: _, [] => rfl
  | cost, n :: nus, c :: cons => by
    have := augment_asEquality (cost + sym n * c.expr) nus cons
    rw [augment, augment] at this ⊢
    simp only [List.map_cons, List.zip_cons_cons, List.foldl_cons, expr_asEquality]
    exact this

theorem asEquality_transversality (cost : Expr) (sign : Expr → Expr → Expr) (syms : List Name) (lams : List Dyn) :
    (transversality cost sign syms lams).map Con.asEquality = transversality cost sign syms lams := by
  rw [transversality, List.map_map]
  exact List.map_congr_left fun c _ => asEquality_none rfl rfl

theorem sim_dualize (S : Sympy) (m : Method) {p : Prob} (h : Usual p) : Sim (dualize S m p) (dualize S m p.ignore) := by
  have e : p.ignore.sympified = p.sympified := rfl
  have e0 : p.ignore.initial = p.initial.map Con.asEquality := rfl
  have e2 : p.ignore.terminal = p.terminal.map Con.asEquality := rfl
  have e3 : p.ignore.costInitial = p.costInitial := rfl
  have e4 : p.ignore.costTerminal = p.costTerminal := rfl
  have e5 : p.ignore.costPath = p.costPath := rfl
  have e6 : p.ignore.states = p.states := rfl
  have e7 : p.ignore.costates = p.costates := rfl
  have e8 : p.ignore.coparameters = p.coparameters := rfl
  have e9 : p.ignore.parameters = p.parameters := rfl
  have e10 : p.ignore.symmetries = p.symmetries := rfl
  have e11 : p.ignore.coms = p.coms := rfl
  have e12 : p.ignore.omega = p.omega := rfl
  have e13 : p.ignore.ind = p.ind := rfl
  have e14 : p.ignore.adjoints = p.adjoints := rfl
  have key : ∀ c, ({ expr := c } : Con).asEquality = { expr := c } := fun c => asEquality_none rfl rfl
  rw [dualize, dualize]
  simp only [e, e0, e2, e3, e4, e5, e6, e7, e8, e9, e10, e11, e12, e13, e14, List.length_map, augment_asEquality]
  split
  · exact Sim.error _
  · cases m with
    | traditional =>
      refine ⟨?_, by rintro _ ⟨⟩; exact h⟩
      simp only [bind, Except.bind, Except.map, Prob.ignore, List.map_append, asEquality_transversality, List.map_cons,
        List.map_nil, key]
    | other =>
      refine ⟨?_, by rintro _ ⟨⟩; exact h⟩
      simp only [bind, Except.bind, Except.map, Prob.ignore, List.map_append, asEquality_transversality, List.map_cons,
        List.map_nil, key]
    | diffyg =>
      simp only
      split
      · exact Sim.error _
      · simp only [bind, Except.bind]
        generalize vectorField S _ _ _ = v
        cases v with
        | error e => exact Sim.error _
        | ok v =>
          simp only
          generalize List.mapM (m := Py) (noether S _ _) _ = w
          cases w with
          | error e => exact Sim.error _
          | ok w =>
            refine ⟨?_, by rintro _ ⟨⟩; exact h⟩
            simp only [Except.map, Prob.ignore, List.map_append, asEquality_transversality, List.map_cons, List.map_nil, key]

theorem sim_algebraic (S : Sympy) {p : Prob} (h : Usual p) : Sim (algebraicControl S p) (algebraicControl S p.ignore) := by
  have e : p.ignore.dualized = p.dualized := rfl
  have e1 : p.ignore.hamiltonian = p.hamiltonian := rfl
  have e2 : p.ignore.controls = p.controls := rfl
  rw [algebraicControl, algebraicControl, e, e1, e2]
  split
  · exact Sim.error _
  · cases p.hamiltonian with
    | none => exact Sim.error _
    | some H =>
      simp only [bind, Except.bind]
      generalize List.mapM (m := Py) (pickOption _) _ = w
      cases w with
      | error e => exact Sim.error _
      | ok w => exact ⟨rfl, by rintro _ ⟨⟩; exact h⟩

theorem sim_differential (S : Sympy) (m : Method) {p : Prob} (h : Usual p) :
    Sim (differentialControl S m p) (differentialControl S m p.ignore) := by
  have e : p.ignore.dualized = p.dualized := rfl
  have e1 : p.ignore.hamiltonian = p.hamiltonian := rfl
  have e2 : p.ignore.controls = p.controls := rfl
  have e6 : p.ignore.states = p.states := rfl
  have e7 : p.ignore.costates = p.costates := rfl
  have e8 : p.ignore.initial = p.initial.map Con.asEquality := rfl
  have e9 : p.ignore.terminal = p.terminal.map Con.asEquality := rfl
  have e10 : p.ignore.chain = p.chain := rfl
  have key : ∀ l : List Expr, (l.map fun gk => ({ expr := gk } : Con)).map Con.asEquality =
      l.map fun gk => ({ expr := gk } : Con) := by
    intro l
    rw [List.map_map]
    exact List.map_congr_left fun c _ => asEquality_none rfl rfl
  have key2 : ∀ l : List Dyn, (l.map fun l => ({ expr := sym l.name } : Con)).map Con.asEquality =
      l.map fun l => ({ expr := sym l.name } : Con) := by
    intro l
    rw [List.map_map]
    exact List.map_congr_left fun c _ => asEquality_none rfl rfl
  rw [differentialControl, differentialControl]
  simp only [e, e1, e2, e6, e7, e8, e9, e10]
  split
  · exact Sim.error _
  · cases p.hamiltonian with
    | none => exact Sim.error _
    | some H =>
      simp only [bind, Except.bind]
      generalize jacobian _ _ = w
      cases w with
      | error e => exact Sim.error _
      | ok w =>
        simp only
        generalize jacobian _ _ = w2
        cases w2 with
        | error e => exact Sim.error _
        | ok w2 =>
          simp only
          generalize S.lu _ _ = w3
          cases w3 with
          | error e => exact Sim.error _
          | ok w3 =>
            cases m with
            | traditional =>
              refine ⟨?_, by rintro _ ⟨⟩; exact h⟩
              simp only [Except.map, Prob.ignore, List.map_append, key]
            | other => exact Sim.error _
            | diffyg =>
              simp only
              split
              · exact Sim.error _
              · generalize vectorField S _ _ _ = v
                cases v with
                | error e => exact Sim.error _
                | ok v =>
                  refine ⟨?_, by rintro _ ⟨⟩; exact h⟩
                  simp only [Except.map, Prob.ignore, List.map_append, key, key2]

theorem sim_normalizeTime {p : Prob} (h : Usual p) : Sim (normalizeTime p) (normalizeTime p.ignore) := by
  have e : p.ignore.sympified = p.sympified := rfl
  rw [normalizeTime, normalizeTime, e]
  split
  · exact Sim.error _
  · exact ⟨rfl, by rintro _ ⟨⟩; exact h⟩

theorem sim_jacobians {p : Prob} (h : Usual p) : Sim (analyticalJacobians p) (analyticalJacobians p.ignore) := by
  have ex : ∀ l : List Con, (l.map Con.asEquality).map Con.expr = l.map Con.expr := by
    intro l
    rw [List.map_map]
    exact List.map_congr_left fun c _ => expr_asEquality c
  have e8 : p.ignore.initial.map Con.expr = p.initial.map Con.expr := ex _
  have e9 : p.ignore.terminal.map Con.expr = p.terminal.map Con.expr := ex _
  have e1 : p.ignore.states = p.states := rfl
  have e2 : p.ignore.parameters = p.parameters := rfl
  have e3 : p.ignore.constraintParams = p.constraintParams := rfl
  have e4 : p.ignore.quads = p.quads := rfl
  rw [analyticalJacobians, analyticalJacobians]
  simp only [e8, e9, e1, e2, e3, e4, bind, Except.bind, pure, Except.pure]
  generalize jacobian (p.states.map Dyn.eom) (p.states.map Dyn.name) = w1
  generalize jacobian (p.initial.map Con.expr) (p.states.map Dyn.name) = w2
  generalize jacobian (p.terminal.map Con.expr) (p.states.map Dyn.name) = w3
  generalize jacobian (p.states.map Dyn.eom) p.parameters = w4
  generalize jacobian (p.initial.map Con.expr) (p.parameters ++ p.constraintParams) = w5
  generalize jacobian (p.terminal.map Con.expr) (p.parameters ++ p.constraintParams) = w6
  generalize jacobian (p.initial.map Con.expr) (p.quads.map Dyn.name) = w7
  generalize jacobian (p.terminal.map Con.expr) (p.quads.map Dyn.name) = w8
  have done : ∀ a b, Sim (.ok { p with dfdy := a, dfdp := b }) (.ok { p.ignore with dfdy := a, dfdp := b }) :=
    fun a b => ⟨rfl, by rintro _ ⟨⟩; exact h⟩
  cases w1 <;> try exact Sim.error _
  cases w2 <;> try exact Sim.error _
  cases w3 <;> try exact Sim.error _
  simp only
  split
  · cases w4 <;> try exact Sim.error _
    cases w5 <;> try exact Sim.error _
    cases w6 <;> try exact Sim.error _
    simp only
    split
    · cases w7 <;> try exact Sim.error _
      cases w8 <;> try exact Sim.error _
      exact done _ _
    · exact done _ _
  · split
    · cases w7 <;> try exact Sim.error _
      cases w8 <;> try exact Sim.error _
      exact done _ _
    · exact done _ _

theorem sim_step (S : Sympy) (st : Step) {p : Prob} (h : Usual p) : Sim (st.run S p) (st.run S p.ignore) := by
  cases st with
  | momentumShift => exact sim_momentumShift h
  | epsTrig => exact sim_epsTrig h
  | utm => exact sim_utm h
  | rashs => exact sim_rashs h
  | dualize m => exact sim_dualize S m h
  | algebraic => exact sim_algebraic S h
  | differential m => exact sim_differential S m h
  | normalizeTime => exact sim_normalizeTime h
  | squash => exact ⟨rfl, by rintro _ ⟨⟩; exact h⟩
  | jacobians => exact sim_jacobians h

theorem sim_runSteps (S : Sympy) : ∀ (steps : List Step) {p : Prob}, Usual p →
    Sim (runSteps S steps p) (runSteps S steps p.ignore)
  | [], p, h => Sim.ok h
  | st :: steps, p, h => by
    obtain ⟨h1, h2⟩ := sim_step S st h
    rw [runSteps, runSteps, List.foldlM_cons, List.foldlM_cons, h1]
    cases hs : st.run S p with
    | error e => exact Sim.error _
    | ok p' => exact sim_runSteps S steps (h2 p' hs)

theorem ineqSteps_ignore (p : Prob) : ineqSteps (p.ignore.initial ++ p.ignore.path ++ p.ignore.terminal) =
    ineqSteps (p.initial ++ p.path ++ p.terminal) := by
  have key : ∀ l : List Con, (l.map Con.asEquality).filter Con.twoSided = l.filter Con.twoSided := by
    intro l
    induction l with
    | nil => rfl
    | cons c l ih =>
      rw [List.map_cons, List.filter_cons, List.filter_cons, twoSided_asEquality, ih]
      split
      · next hc => rw [Con.asEquality, if_pos hc]
      · rfl
  rw [ineqSteps, ineqSteps, List.filter_append, List.filter_append, List.filter_append, List.filter_append]
  change List.mapM _ ((p.initial.map Con.asEquality).filter Con.twoSided ++ (p.path.filter Con.twoSided).filter Con.twoSided ++
    (p.terminal.map Con.asEquality).filter Con.twoSided) = _
  rw [key, key, List.filter_filter]
  simp only [Bool.and_self]

/-! ### Properties -/

/-- Violation: for every problem, removing all one-sided path constraints and replacing all one-sided boundary
constraints by equalities does not change the boundary value problem that is made. -/
theorem C65_violated (S : Sympy) (o : Opts) {p : Prob} (h : Usual p) :
    indirect S o p.ignore = (indirect S o p).map Prob.ignore := by
  obtain ⟨h1, h2⟩ := sim_preprocess h
  rw [indirect, indirect, h1]
  cases hp : preprocess p with
  | error e => rfl
  | ok q =>
    have hs : indirectSteps o q.ignore = indirectSteps o q := by
      rw [indirectSteps, indirectSteps, ineqSteps_ignore]
      rfl
    change (indirectSteps o q.ignore >>= fun steps => runSteps S steps q.ignore) =
      (indirectSteps o q >>= fun steps => runSteps S steps q).map Prob.ignore
    rw [hs]
    cases indirectSteps o q with
    | error e => rfl
    | ok steps => exact (sim_runSteps S steps (h2 q hp)).1

/-- The same for the direct method. -/
theorem C65_violated_direct (S : Sympy) (jac shift norm : Bool) {p : Prob} (h : Usual p) :
    (preprocess p.ignore >>= fun q => directSteps jac shift norm q >>= fun st => runSteps S st q) =
      (preprocess p >>= fun q => directSteps jac shift norm q >>= fun st => runSteps S st q).map Prob.ignore := by
  obtain ⟨h1, h2⟩ := sim_preprocess h
  rw [h1]
  cases hp : preprocess p with
  | error e => rfl
  | ok q =>
    have hs : directSteps jac shift norm q.ignore = directSteps jac shift norm q := by
      rw [directSteps, directSteps, ineqSteps_ignore]
      rfl
    change (directSteps jac shift norm q.ignore >>= fun steps => runSteps S steps q.ignore) =
      (directSteps jac shift norm q >>= fun steps => runSteps S steps q).map Prob.ignore
    rw [hs]
    cases directSteps jac shift norm q with
    | error e => rfl
    | ok steps => exact (sim_runSteps S steps (h2 q hp)).1

/-- `x' = u` from 0 to "at least 1", with `u ≤ 1/2`. -/
def oneSidedEx : Prob := {
  ind := "t"
  states := [⟨"x", sym "u"⟩]
  controls := ["u"]
  costPath := 1 + sym "u" * sym "u"
  initial := [{ expr := sym "x" }, { expr := sym "t" }]
  path := [{ expr := sym "u", upper := some (1 / 2) }]
  terminal := [{ expr := sym "x" - 1, lower := some 0 }] }

def oneSidedSympy : Sympy where
  solve _ _ := [[("u", -(sym "_lam_x") / 2)]]
  lu _ _ := .error .valueError
  integrate _ _ := 0

/-- The upper bound does not appear, and the terminal inequality is the condition `x - 1 = 0`. -/
example : (match indirect oneSidedSympy { controlMethod := .algebraic } oneSidedEx with
    | .ok p => decide ((p.states.map Dyn.eom).take 1 = [sym "u" * sym "_delta_t"] ∧ (p.terminal.map Con.expr).take 1 = [sym "x" - 1] ∧
      p.costPath = (1 + sym "u" * sym "u") * sym "_delta_t" ∧ p.terminal.length = 4)
    | .error _ => false) = true ∧ Usual oneSidedEx ∧ oneSidedEx.ignore ≠ oneSidedEx := by
  refine ⟨by decide +kernel, by simp [Usual, oneSidedEx], by decide +kernel⟩

end Beluga.Sym
