import Verif.Homog.Lu
import Verif.Symbolic.Control
import Verif.Symbolic.Props6

/-! # Dimensional consistency: what it means, and the functors before `Dualize` -/

namespace Beluga.Homog

open Beluga.Sym Beluga.Sym.Expr Beluga.Num

variable {U : Name → Nat → ℝ → ℝ} {Γ : Name → Expr}

/-! ### Specification -/

/-- A constraint of unit `u`: the expression and its bounds have that unit; the activator of a two-sided constraint,
which becomes a weight in the cost, has the unit `act`. -/
structure ConDim (U : Name → Nat → ℝ → ℝ) (Γ : Name → Expr) (act : Expr) (c : Con) (u : Expr) : Prop where
  expr : Dim U Γ c.expr u
  lower : ∀ e, c.lower = some e → Dim U Γ e u
  upper : ∀ e, c.upper = some e → Dim U Γ e u
  activator : c.twoSided = true → ∀ a, c.activator = some a → Dim U Γ a act

/-- A problem is dimensionally consistent with the units `T` (and `Γ s` for the symbol `s`): rates have the unit of the
variable per unit of the independent variable, constraints and cost their declared units, quantities and switches the unit
of their name.  Quadratures and coparameters are rates with respect to a time of unit `w`. -/
structure Consistent (U : Name → Nat → ℝ → ℝ) (Γ : Name → Expr) (w : Expr) (p : Prob) (T : Tab) : Prop where
  dyn : ∀ d ∈ p.states ++ p.costates, Dim U Γ d.eom (Γ d.name / Γ p.ind)
  quad : ∀ d ∈ p.quads ++ p.coparameters, Dim U Γ d.eom (Γ d.name / w)
  initial : List.Forall₂ (ConDim U Γ T.cost) p.initial T.initial
  path : List.Forall₂ (ConDim U Γ (T.cost / w)) p.path T.path
  terminal : List.Forall₂ (ConDim U Γ T.cost) p.terminal T.terminal
  costInitial : Dim U Γ p.costInitial T.cost
  costPath : Dim U Γ p.costPath (T.cost / Γ p.ind)
  costTerminal : Dim U Γ p.costTerminal T.cost
  quantities : ∀ q ∈ p.quantities, Dim U Γ q.expr (Γ q.name)
  switches : ∀ s ∈ p.switches, Dim U Γ s.symFunc (Γ s.name)
  hamiltonian : ∀ H, p.hamiltonian = some H → Dim U Γ H T.ham
  law : ∀ o ∈ p.controlLaw, List.Forall₂ (fun u e => Dim U Γ e (Γ u)) p.controls o
  named : ∀ n ∈ p.ind :: ((p.states ++ p.costates).map Dyn.name ++ p.parameters ++ p.controls), n ∈ T.decl.map Prod.fst

/-- The parts of a switch: the functions have the unit of the switch, conditions and tolerance one common unit. -/
structure SwitchDim (U : Name → Nat → ℝ → ℝ) (Γ : Name → Expr) (s : Switch) : Prop where
  functions : ∀ f ∈ s.functions, Dim U Γ f (Γ s.name)
  conditions : ∃ d, Dim U Γ s.tol d ∧ ∀ cs ∈ s.conditions, ∀ c ∈ cs, Dim U Γ c d

/-- The units of the symbols are the declared ones. -/
def Agrees (Γ : Name → Expr) (T : Tab) : Prop := ∀ x ∈ T.decl, Γ x.1 = x.2

/-- Nothing that `Dualize` and the control laws add is there yet. -/
structure Fresh (p : Prob) : Prop where
  costates : p.costates = []
  coparameters : p.coparameters = []
  controlLaw : p.controlLaw = []
  hamiltonian : p.hamiltonian = none

/-! ### Lemmas -/

theorem Tab.of_eq {T : Tab} (h : Agrees Γ T) {n : Name} (hn : n ∈ T.decl.map Prod.fst) : T.of n = Γ n := by
  rw [Tab.of]
  cases hl : T.decl.lookup n with
  | none =>
    rw [List.lookup_eq_none_iff] at hl
    obtain ⟨x, hx, rfl⟩ := List.mem_map.1 hn
    simpa using hl x hx
  | some u =>
    obtain ⟨l1, l2, e, -⟩ := List.lookup_eq_some_iff.1 hl
    exact (h (n, u) (by rw [e]; simp)).symm

theorem SameUnit.symm {a b : Expr} (h : SameUnit U a b) : SameUnit U b a := fun φ hφ => (h φ hφ).symm

theorem SameUnit.trans {a b c : Expr} (h : SameUnit U a b) (h' : SameUnit U b c) : SameUnit U a c :=
  fun φ hφ => (h φ hφ).trans (h' φ hφ)

theorem SameUnit.div {a b c d : Expr} (h : SameUnit U a b) (h' : SameUnit U c d) : SameUnit U (a / c) (b / d) :=
  fun φ hφ => by rw [eval_div, eval_div, h φ hφ, h' φ hφ]

/-- A symbol has only its own unit. -/
theorem Dim.of_sym {e d : Expr} (h : Dim U Γ e d) : ∀ {s : Name}, e = sym s → SameUnit U (Γ s) d := by
  induction h with
  | sym s => intro s' h; cases h; exact SameUnit.refl _
  | conv _ hs ih => intro s h; exact SameUnit.trans (ih h) hs
  | _ => intro s h; cases h

theorem ConDim.subs {act u : Expr} {x : Name} {new : Expr} (hn : Dim U Γ new (Γ x)) {c : Con} (h : ConDim U Γ act c u) :
    ConDim U Γ act (c.subs x new) u := by
  refine ⟨Dim.subs hn h.expr, fun e he => ?_, fun e he => ?_, fun ht a ha => h.activator ?_ a ha⟩
  · simp only [Con.subs, Option.map_eq_some_iff] at he
    obtain ⟨e', h1, rfl⟩ := he
    exact Dim.subs hn (h.lower e' h1)
  · simp only [Con.subs, Option.map_eq_some_iff] at he
    obtain ⟨e', h1, rfl⟩ := he
    exact Dim.subs hn (h.upper e' h1)
  · simpa [Con.subs, Con.twoSided] using ht

theorem forall₂_subs {act : Expr} {x : Name} {new : Expr} (hn : Dim U Γ new (Γ x)) {cs : List Con} {us : List Expr}
    (h : List.Forall₂ (ConDim U Γ act) cs us) : List.Forall₂ (ConDim U Γ act) (cs.map (Con.subs x new)) us := by
  rw [List.forall₂_map_left_iff]
  exact h.imp fun _ _ h => ConDim.subs hn h

theorem Consistent.subsAll {w : Expr} {p : Prob} {T : Tab} (h : Consistent U Γ w p T) {x : Name} {new : Expr} (hn : Dim U Γ new (Γ x)) :
    Consistent U Γ w (p.subsAll x new) T where
  dyn d hd := by
    simp only [Prob.subsAll, ← List.map_append, List.mem_map] at hd
    obtain ⟨d, hd, rfl⟩ := hd
    exact Dim.subs hn (h.dyn d hd)
  quad d hd := by
    simp only [Prob.subsAll, ← List.map_append, List.mem_map] at hd
    obtain ⟨d, hd, rfl⟩ := hd
    exact Dim.subs hn (h.quad d hd)
  initial := forall₂_subs hn h.initial
  path := forall₂_subs hn h.path
  terminal := forall₂_subs hn h.terminal
  costInitial := Dim.subs hn h.costInitial
  costPath := Dim.subs hn h.costPath
  costTerminal := Dim.subs hn h.costTerminal
  quantities q hq := by
    simp only [Prob.subsAll, List.mem_map] at hq
    obtain ⟨q, hq, rfl⟩ := hq
    exact Dim.subs hn (h.quantities q hq)
  switches s hs := by
    simp only [Prob.subsAll, List.mem_map] at hs
    obtain ⟨s, hs, rfl⟩ := hs
    exact Dim.subs hn (h.switches s hs)
  hamiltonian H hH := by
    simp only [Prob.subsAll, Option.map_eq_some_iff] at hH
    obtain ⟨H, hH, rfl⟩ := hH
    exact Dim.subs hn (h.hamiltonian H hH)
  law := h.law
  named n hn := h.named n (by simpa [Prob.subsAll, Dyn.subs, Function.comp_def] using hn)

theorem Fresh.subsAll {p : Prob} (h : Fresh p) (x : Name) (e : Expr) : Fresh (p.subsAll x e) := by
  refine ⟨?_, ?_, h.controlLaw, ?_⟩ <;> simp [Prob.subsAll, h.costates, h.coparameters, h.hamiltonian]

/-- What the functors before `Dualize` leave alone. -/
structure Same (p p' : Prob) : Prop where
  fresh : Fresh p → Fresh p'
  names : p'.states.map Dyn.name = p.states.map Dyn.name
  ind : p'.ind = p.ind
  parameters : p'.parameters = p.parameters
  quads : p'.quads.map Dyn.name = p.quads.map Dyn.name

theorem Same.refl (p : Prob) : Same p p := ⟨id, rfl, rfl, rfl, rfl⟩

theorem Same.trans {p q r : Prob} (h : Same p q) (h' : Same q r) : Same p r :=
  ⟨fun f => h'.fresh (h.fresh f), h'.names.trans h.names, h'.ind.trans h.ind, h'.parameters.trans h.parameters,
    h'.quads.trans h.quads⟩

theorem Same.subsAll (p : Prob) (x : Name) (e : Expr) : Same p (p.subsAll x e) :=
  ⟨fun h => h.subsAll x e, by simp [Prob.subsAll, Dyn.subs, Function.comp_def], rfl, rfl,
    by simp [Prob.subsAll, Dyn.subs, Function.comp_def]⟩

/-! ### The preprocessor -/

theorem rashsMult_dim {tol d : Expr} (ht : Dim U Γ tol d) {cs : List Expr} (hc : ∀ c ∈ cs, Dim U Γ c d)
    (hd : IsUnit U d) : Dim U Γ (rashsMult tol cs) 1 := by
  refine Dim.foldl_add (f := fun c => 1 / (1 + fn .exp (c / tol))) cs (.zero isUnit_one) fun c hm => ?_
  have h1 : Dim U Γ (fn .exp (c / tol)) 1 := .fn _ (.conv (Dim.div (hc c hm) ht) fun φ hφ => by
    rw [eval_div, eval_one', div_self (hd φ hφ).ne'])
  exact .conv (Dim.div (.num 1) (.add (.num 1) h1)) fun φ _ => by rw [eval_div, eval_one', div_one]

theorem rashsFunc_dim (hΓ : ∀ s, IsUnit U (Γ s)) {s : Switch} (h : SwitchDim U Γ s) :
    Dim U Γ (rashsFunc s.tol s.functions s.conditions) (Γ s.name) := by
  obtain ⟨d, ht, hc⟩ := h.conditions
  refine Dim.foldl_add (f := fun fc : Expr × List Expr => rashsMult s.tol fc.2 * fc.1) _ (.zero (hΓ _)) fun fc hm => ?_
  obtain ⟨h1, h2⟩ := List.of_mem_zip hm
  exact .conv (.mul (rashsMult_dim ht (hc _ h2) (Dim.isUnit hΓ ht)) (h.functions _ h1)) fun φ _ => by
    rw [eval_mul, eval_one', one_mul]

/-- Every quantity has the unit of its name. -/
def QDim (U : Name → Nat → ℝ → ℝ) (Γ : Name → Expr) (qs : List Quantity) : Prop := ∀ q ∈ qs, Dim U Γ q.expr (Γ q.name)

theorem mergeRow_dim (i : Nat) {qs : List Quantity} (h : QDim U Γ qs) : ∀ n, QDim U Γ (mergeRow i qs n)
  | 0 => h
  | j + 1 => by
    have ih := mergeRow_dim i h j
    rw [mergeRow]
    split
    · next qi qj hi hj =>
      split
      · intro q hq
        rcases List.mem_or_eq_of_mem_set hq with hq | rfl
        · exact ih q hq
        · exact Dim.subs (ih qi (List.mem_of_getElem? hi)) (ih qj (List.mem_of_getElem? hj))
      · exact ih
    · exact ih

theorem mergeRows_dim (n : Nat) {qs : List Quantity} (h : QDim U Γ qs) : ∀ i, QDim U Γ (mergeRows n qs i)
  | 0 => h
  | i + 1 => mergeRow_dim i (mergeRows_dim n h i) n

theorem elimLoop_homog {w : Expr} {p : Prob} {T : Tab} (h : Consistent U Γ w p T) : ∀ k, Consistent U Γ w (elimLoop p k) T ∧ Same p (elimLoop p k)
  | 0 => ⟨h, .refl p⟩
  | k + 1 => by
    obtain ⟨ih, ih'⟩ := elimLoop_homog h k
    rw [elimLoop]
    split
    · next q hq =>
      exact ⟨ih.subsAll (ih.quantities q (List.mem_of_getElem? hq)), ih'.trans (.subsAll _ _ _)⟩
    · exact ⟨ih, ih'⟩

theorem rashsLoop_homog {w : Expr} {p : Prob} {T : Tab} (h : Consistent U Γ w p T) : ∀ k, Consistent U Γ w (rashsLoop p k) T ∧ Same p (rashsLoop p k)
  | 0 => ⟨h, .refl p⟩
  | k + 1 => by
    obtain ⟨ih, ih'⟩ := rashsLoop_homog h k
    rw [rashsLoop]
    split
    · next q hq =>
      exact ⟨ih.subsAll (ih.switches q (List.mem_of_getElem? hq)), ih'.trans (.subsAll _ _ _)⟩
    · exact ⟨ih, ih'⟩

theorem preprocess_homog (hΓ : ∀ s, IsUnit U (Γ s)) {w : Expr} {p p' : Prob} {T : Tab} (h : Consistent U Γ w p T)
    (hs : ∀ s ∈ p.switches, SwitchDim U Γ s) (hp : preprocess p = .ok p') : Consistent U Γ w p' T ∧ Same p p' := by
  rw [preprocess] at hp
  obtain ⟨q, hq, hp⟩ := bind_ok hp
  rw [Prob.sympify] at hq
  split at hq
  · cases hq
  · cases hq
    rw [applyQuantities] at hp
    split at hp
    · cases hp
    · cases hp
      have h1 : QDim U Γ (p.quantities.map Quantity.sympify) := by
        intro q hq
        obtain ⟨q, hm, rfl⟩ := List.mem_map.1 hq
        exact h.quantities q hm
      have h2 : Consistent U Γ w { p with
          sympified := true
          quantities := mergeRows (p.quantities.map Quantity.sympify).length (p.quantities.map Quantity.sympify)
            (p.quantities.map Quantity.sympify).length
          switches := p.switches.map Switch.sympify } T :=
        { h with
          quantities := mergeRows_dim _ h1 _
          switches := by
            intro s hm
            obtain ⟨s, hm', rfl⟩ := List.mem_map.1 hm
            exact rashsFunc_dim hΓ (hs s hm') }
      obtain ⟨h3, h4⟩ := elimLoop_homog h2 (p.quantities.map Quantity.sympify).length
      refine ⟨h3, Same.trans (q := { p with
          sympified := true
          quantities := mergeRows (p.quantities.map Quantity.sympify).length (p.quantities.map Quantity.sympify)
            (p.quantities.map Quantity.sympify).length
          switches := p.switches.map Switch.sympify }) ⟨fun f => ⟨f.costates, f.coparameters, f.controlLaw, f.hamiltonian⟩,
        rfl, rfl, rfl, rfl⟩ h4⟩

/-! ### MomentumShift, EpsTrig, UTM, RASHS -/

theorem shift_homog (hΓ : ∀ s, IsUnit U (Γ s)) {w : Expr} {p p' : Prob} {T : Tab} (hw : SameUnit U (Γ p.ind) w) (h : Consistent U Γ w p T)
    (hf : Fresh p) (ha : Agrees Γ (uShift p T)) (hp : momentumShift p = .ok p') :
    Consistent U Γ w p' (uShift p T) ∧ Fresh p' ∧ SameUnit U (Γ p'.ind) w ∧ p'.states = p.states ++ [⟨p.ind, 1⟩] ∧
      p'.parameters = p.parameters ∧ p'.quads = p.quads := by
  rw [momentumShift] at hp
  split at hp
  · cases hp
  · have hp := (Except.ok.inj hp).symm
    have hT : Agrees Γ T := fun x hx => ha x (by rw [uShift]; exact List.mem_append_left _ hx)
    have h1 : Γ ("_" ++ p.ind) = Γ p.ind := by
      rw [← Tab.of_eq hT (h.named p.ind (by simp))]
      exact ha ("_" ++ p.ind, T.of p.ind) (by simp [uShift])
    subst hp
    refine ⟨{ h with dyn := ?_, costPath := ?_, named := ?_ }, ⟨hf.costates, hf.coparameters, hf.controlLaw, hf.hamiltonian⟩, ?_, rfl, rfl, rfl⟩
    · intro d hd
      dsimp only at hd ⊢
      rw [h1]
      simp only [List.append_assoc, List.mem_append, List.mem_singleton] at hd
      rcases hd with hd | rfl | hd
      · exact h.dyn d (by simp [hd])
      · refine .conv (.num 1) fun φ hφ => ?_
        rw [eval_div, eval_one', div_self (hΓ _ φ hφ).ne']
      · exact h.dyn d (by simp [hd])
    · dsimp only
      rw [h1]
      exact h.costPath
    · intro n hn
      simp only [uShift, List.map_append, List.mem_append, List.map_cons, List.map_nil, List.mem_cons,
        List.not_mem_nil, or_false] at hn ⊢
      have := h.named n
      simp only [List.mem_cons, List.mem_append, List.map_append] at this
      rcases hn with hn | (((hn | hn) | hn) | hn) | hn
      · exact .inr hn
      · exact .inl (this (by tauto))
      · subst hn; exact .inl (this (by tauto))
      · exact .inl (this (by tauto))
      · exact .inl (this (by tauto))
      · exact .inl (this (by tauto))
    · dsimp only
      rw [h1]
      exact hw

theorem forall₂_eraseIdx {α β : Type} {R : α → β → Prop} : ∀ {as : List α} {bs : List β}, List.Forall₂ R as bs → ∀ i,
    List.Forall₂ R (as.eraseIdx i) (bs.eraseIdx i)
  | _, _, .nil, i => by simp
  | _, _, .cons h t, 0 => t
  | _, _, .cons h t, i + 1 => .cons h (forall₂_eraseIdx t i)

theorem forall₂_getElem? {α β : Type} {R : α → β → Prop} : ∀ {as : List α} {bs : List β}, List.Forall₂ R as bs → ∀ {i : Nat} {a : α},
    as[i]? = some a → ∃ b, bs[i]? = some b ∧ R a b
  | _, _, .nil, i, a, h => by simp at h
  | _, _, .cons hr t, 0, a, h => by cases h; exact ⟨_, rfl, hr⟩
  | _, _, .cons hr t, i + 1, a, h => forall₂_getElem? t h

theorem eps_homog {w : Expr} {p p' : Prob} {T : Tab} (hw : SameUnit U (Γ p.ind) w)
    (h : Consistent U Γ w p T) (hf : Fresh p) (ha : Agrees Γ (uEps p T)) (hp : epsTrig p = .ok p') :
    Consistent U Γ w p' (uEps p T) ∧ Same p p' := by
  rw [epsTrig] at hp
  split at hp
  · cases hp
  · rw [uEps] at ha ⊢
    cases hi : p.path.findIdx? fun c => c.method = .epstrig with
    | none => rw [hi] at hp; cases hp
    | some i =>
      rw [hi] at hp ha
      cases hc : p.path[i]? with
      | none => simp only [hc] at hp; cases hp
      | some c =>
        simp only [hc] at hp ha ⊢
        cases hk : p.controls.findIdx? fun u => c.expr = sym u with
        | none => rw [hk] at hp; cases hp
        | some k =>
          simp only [hk] at hp
          obtain ⟨hlt, hpk, -⟩ := List.findIdx?_eq_some_iff_getElem.1 hk
          have hgk : p.controls[k]? = some p.controls[k] := List.getElem?_eq_getElem hlt
          rw [hgk] at hp
          generalize hu : p.controls[k] = u at *
          simp only [decide_eq_true_eq] at hpk
          obtain ⟨ex, lo?, hi?, a?, me⟩ := c
          simp only at hpk
          subst hpk
          split at hp
          · next u' a lo hi' hu' ha1 hlo hhi =>
            cases hu'
            simp only at ha1 hlo hhi ha ⊢
            subst ha1 hlo hhi
            obtain ⟨d, -, hd⟩ := forall₂_getElem? h.path hc
            have hs := Dim.of_sym hd.expr rfl
            have hlo : Dim U Γ lo (Γ u) := .conv (hd.lower lo rfl) (SameUnit.symm hs)
            have hhi : Dim U Γ hi' (Γ u) := .conv (hd.upper hi' rfl) (SameUnit.symm hs)
            have hact := hd.activator rfl a rfl
            have hnew : Γ ("_" ++ u ++ "_trig") = 1 := ha ("_" ++ u ++ "_trig", 1) (by simp)
            have hT : Agrees Γ T := fun x hx => ha x (by exact List.mem_append_left _ hx)
            have htrig : ∀ f, Dim U Γ (fn f (sym ("_" ++ u ++ "_trig"))) 1 := fun f => .fn f (by
              rw [← hnew]; exact .sym _)
            have hnewdim : Dim U Γ ((hi' - lo) / 2 * fn .sin (sym ("_" ++ u ++ "_trig")) + (hi' + lo) / 2) (Γ u) := by
              refine .add (.conv (.mul (Dim.div (Dim.sub hhi hlo) (.num 2)) (htrig _)) ?_)
                (.conv (Dim.div (.add hhi hlo) (.num 2)) ?_)
              · intro φ _
                rw [eval_mul, eval_div, eval_one', div_one, mul_one]
              · intro φ _
                rw [eval_div, eval_one', div_one]
            have h1 : Consistent U Γ w { p with
                path := p.path.eraseIdx i
                controls := p.controls.set k ("_" ++ u ++ "_trig")
                costPath := p.costPath + (-a) * fn .cos (sym ("_" ++ u ++ "_trig")) }
                { T with path := T.path.eraseIdx i, decl := T.decl ++ [("_" ++ u ++ "_trig", 1)] } :=
              { h with
                path := forall₂_eraseIdx h.path i
                costPath := .add h.costPath (.conv (.mul (Dim.neg hact) (htrig _)) fun φ hφ => by
                  rw [eval_mul, eval_one', mul_one, eval_div, eval_div, hw φ hφ])
                law := by rw [hf.controlLaw]; simp
                named := by
                  intro n hn
                  simp only [List.mem_cons, List.mem_append, List.map_append, List.map_cons, List.map_nil, List.not_mem_nil,
                    or_false] at hn ⊢
                  have := h.named n
                  simp only [List.mem_cons, List.mem_append, List.map_append] at this
                  rcases hn with hn | ((hn | hn) | hn) | hn
                  · exact .inl (this (by tauto))
                  · exact .inl (this (by tauto))
                  · exact .inl (this (by tauto))
                  · exact .inl (this (by tauto))
                  · rcases List.mem_or_eq_of_mem_set hn with hn | hn
                    · exact .inl (this (by tauto))
                    · exact .inr hn }
            have h2 := h1.subsAll hnewdim
            have h3 := Same.subsAll { p with
                path := p.path.eraseIdx i
                controls := p.controls.set k ("_" ++ u ++ "_trig")
                costPath := p.costPath + (-a) * fn .cos (sym ("_" ++ u ++ "_trig")) } u
              ((hi' - lo) / 2 * fn .sin (sym ("_" ++ u ++ "_trig")) + (hi' + lo) / 2)
            have hp := Except.ok.inj hp
            subst hp
            have h0 : Same p { p with
                path := p.path.eraseIdx i
                controls := p.controls.set k ("_" ++ u ++ "_trig")
                costPath := p.costPath + (-a) * fn .cos (sym ("_" ++ u ++ "_trig")) } :=
              ⟨fun f => ⟨f.costates, f.coparameters, f.controlLaw, f.hamiltonian⟩, rfl, rfl, rfl, rfl⟩
            refine ⟨{ h2 with }, Same.trans (h0.trans h3) ⟨fun f => ⟨f.costates, f.coparameters, f.controlLaw, f.hamiltonian⟩, rfl, rfl, rfl, rfl⟩⟩
          · cases hp

/-- The penalty has the unit of the activator. -/
theorem utmTerm_dim (hΓ : ∀ s, IsUnit U (Γ s)) {a e lo hi d u : Expr} (ha : Dim U Γ a d) (he : Dim U Γ e u)
    (hl : Dim U Γ lo u) (hh : Dim U Γ hi u) : Dim U Γ (utmTerm a e lo hi) d := by
  have hu := Dim.isUnit hΓ he
  have h2 : Dim U Γ (2 * e) u := .conv (.mul (.num 2) he) fun φ _ => by rw [eval_mul, eval_one', one_mul]
  have h1 : Dim U Γ (fn .cos (pi / 2 * (2 * e - hi - lo) / (hi - lo))) 1 := .fn _ (.conv (Dim.div (.mul (Dim.div .pi (.num 2))
    (Dim.sub (Dim.sub h2 hh) hl)) (Dim.sub hh hl)) fun φ hφ => by
      rw [eval_div, eval_mul, eval_div, eval_one', div_one, one_mul, div_self (hu φ hφ).ne'])
  exact .conv (.mul ha (Dim.sub (.conv (Dim.div (.num 1) h1) fun φ _ => by rw [eval_div, eval_one', div_one]) (.num 1)))
    fun φ _ => by rw [eval_mul, eval_one', mul_one]

theorem twoSided_of {c : Con} {lo hi : Expr} (h1 : c.lower = some lo) (h2 : c.upper = some hi) : c.twoSided = true := by
  simp [Con.twoSided, h1, h2]

theorem utm_homog (hΓ : ∀ s, IsUnit U (Γ s)) {w : Expr} {p p' : Prob} {T : Tab} (hw : SameUnit U (Γ p.ind) w)
    (h : Consistent U Γ w p T) (hp : utm p = .ok p') :
    Consistent U Γ w p' (uUtm p T) ∧ Same p p' := by
  rw [utm] at hp
  split at hp
  · cases hp
  · rw [uUtm]
    cases hi : utmFind p with
    | none => rw [hi] at hp; cases hp
    | some li =>
      obtain ⟨loc, i⟩ := li
      simp only [hi] at hp
      cases hc : (p.conList loc)[i]? with
      | none => simp only [hc] at hp; cases hp
      | some c =>
        simp only [hc] at hp
        split at hp
        · next a lo hi' ha hlo hhi =>
          split at hp
          · have hp := Except.ok.inj hp
            have h2 := twoSided_of hlo hhi
            subst hp
            match loc, hc with
            | 0, hc =>
              obtain ⟨d, -, hd⟩ := forall₂_getElem? h.initial hc
              exact ⟨{ h with
                initial := forall₂_eraseIdx h.initial i
                costInitial := .add h.costInitial
                  (utmTerm_dim hΓ (hd.activator h2 a ha) hd.expr (hd.lower lo hlo) (hd.upper hi' hhi)) },
                ⟨fun f => ⟨f.costates, f.coparameters, f.controlLaw, f.hamiltonian⟩, rfl, rfl, rfl, rfl⟩⟩
            | 1, hc =>
              obtain ⟨d, -, hd⟩ := forall₂_getElem? h.path hc
              exact ⟨{ h with
                path := forall₂_eraseIdx h.path i
                costPath := .add h.costPath (.conv
                  (utmTerm_dim hΓ (hd.activator h2 a ha) hd.expr (hd.lower lo hlo) (hd.upper hi' hhi)) (SameUnit.div (SameUnit.refl _) (SameUnit.symm hw))) },
                ⟨fun f => ⟨f.costates, f.coparameters, f.controlLaw, f.hamiltonian⟩, rfl, rfl, rfl, rfl⟩⟩
            | 2, hc =>
              obtain ⟨d, -, hd⟩ := forall₂_getElem? h.terminal hc
              exact ⟨{ h with
                terminal := forall₂_eraseIdx h.terminal i
                costTerminal := .add h.costTerminal
                  (utmTerm_dim hΓ (hd.activator h2 a ha) hd.expr (hd.lower lo hlo) (hd.upper hi' hhi)) },
                ⟨fun f => ⟨f.costates, f.coparameters, f.controlLaw, f.hamiltonian⟩, rfl, rfl, rfl, rfl⟩⟩
            | n + 3, hc =>
              rw [utmFind] at hi
              split at hi
              · cases hi
              · split at hi
                · cases hi
                · split at hi <;> cases hi
          · cases hp
        · cases hp

theorem rashs_homog {w : Expr} {p p' : Prob} {T : Tab} (h : Consistent U Γ w p T) (hp : rashs p = .ok p') :
    Consistent U Γ w p' T ∧ Same p p' := by
  rw [rashs] at hp
  split at hp
  · cases hp
  · cases hp
    exact rashsLoop_homog h _

end Beluga.Homog
