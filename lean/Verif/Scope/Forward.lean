import Verif.Scope.Front
import Verif.Extremal.Back

/-! # Scoping is kept by dualization, control laws and the reduction to a boundary value problem -/

namespace Beluga.Scope

open Beluga.Sym Beluga.Sym.Expr Beluga.Num Beluga.Opt

/-- States, costates, parameters, constants. -/
def allNames (p : Prob) : List Name := sts p ++ p.costates.map Dyn.name ++ p.parameters ++ p.constants

/-- From the dual problem on, every equation uses only what has a value where the equation is evaluated. -/
structure Scoped (q : Prob) : Prop where
  rates : ∀ d ∈ q.states ++ q.costates ++ q.quads ++ q.coparameters, Uses d.eom (allNames q ++ q.controls)
  bcs : ∀ c ∈ q.initial ++ q.terminal,
    Uses c.expr (allNames q ++ q.controls ++ qds q ++ q.coparameters.map Dyn.name ++ q.constraintParams ++ q.adjoints)
  ham : ∃ H, q.hamiltonian = some H ∧ Uses H (allNames q ++ q.controls)
  law : ∀ o ∈ q.controlLaw, o.length = q.controls.length ∧ ∀ e ∈ o, Uses e (allNames q)

theorem setEoms_names : ∀ (ds : List Dyn) (es : List Expr), (setEoms ds es).map Dyn.name = ds.map Dyn.name
  | [], _ => by cases ‹List Expr› <;> rfl
  | d :: ds, [] => rfl
  | d :: ds, e :: es => by simp [setEoms, setEoms_names ds es]

theorem setEoms_mem {ds : List Dyn} {es : List Expr} {d : Dyn} (h : d ∈ setEoms ds es) :
    d.eom ∈ es ∨ ∃ d0 ∈ ds, d.eom = d0.eom := by
  induction ds generalizing es with
  | nil => cases es <;> cases h
  | cons d0 ds ih =>
    cases es with
    | nil => exact Or.inr ⟨d, h, rfl⟩
    | cons e es =>
      rcases List.mem_cons.1 h with rfl | h
      · left; simp
      · rcases ih h with h1 | ⟨d1, h1, h2⟩
        · left; simp [h1]
        · exact Or.inr ⟨d1, by simp [h1], h2⟩

theorem free_standardForm {n : Nat} {r : List Expr} {m : Expr} {s : Name} (hr : r ∈ standardForm n) (hm : m ∈ r) : s ∉ m.free := by
  obtain ⟨i, -, rfl⟩ := List.mem_map.1 hr
  obtain ⟨j, -, rfl⟩ := List.mem_map.1 hm
  intro h
  split at h
  · cases h
  · split at h <;> cases h

theorem vectorField_free {S : Sympy} (hS : Tidy S) {H : Expr} {om : List (List Expr)} {basis : List Name} {chi : List Expr}
    (h : vectorField S H om basis = .ok chi) {e : Expr} (he : e ∈ chi) {s : Name} (hs : s ∈ e.free) :
    s ∈ H.free ∨ ∃ r ∈ om, ∃ m ∈ r, s ∈ m.free := by
  rw [vectorField] at h
  obtain ⟨x, hx, h⟩ := bind_ok h
  cases h
  obtain ⟨e0, h0, rfl⟩ := List.mem_map.1 he
  have hs : s ∈ [] ++ e0.free := hs
  rw [List.nil_append] at hs
  rcases hS.lu _ _ _ hx e0 h0 s hs with h1 | ⟨c, hc, h1⟩
  · exact Or.inr h1
  · obtain ⟨b, -, rfl⟩ := List.mem_map.1 hc
    exact Or.inl (mem_free_diff h1)

/-- What `Dualize` does, with any method. -/
theorem dualize_ok {S : Sympy} (hS : Tidy S) {m : Method} {p p' : Prob} (hc : p.costates = []) (hcp : p.coparameters = [])
    (h : dualize S m p = .ok p') :
    ∃ (cos cops : List Dyn) (sy : List (List Expr)) (om : Option (List (List Expr))) (cm : List (Name × Expr)),
      cos.map Dyn.name = (sts p).map lamName ∧ cops.map Dyn.name = p.parameters.map lamName ∧
      (∀ d ∈ cos ++ cops, ∀ s ∈ d.eom.free, s ∈ (hamiltonianOf p.costPath p.states).free) ∧ p' = { p with
      adjoints := p.adjoints ++ nuNames "_nu_0_" p.initial.length ++ nuNames "_nu_f_" p.terminal.length
      costInitial := augment p.costInitial (nuNames "_nu_0_" p.initial.length) p.initial
      costTerminal := augment p.costTerminal (nuNames "_nu_f_" p.terminal.length) p.terminal
      hamiltonian := some (hamiltonianOf p.costPath p.states)
      costates := cos
      coparameters := cops
      symmetries := sy
      omega := om
      coms := cm
      initial := p.initial ++ transversality (augment p.costInitial (nuNames "_nu_0_" p.initial.length) p.initial) (fun l d => l + d)
        (sts p ++ p.parameters) (cos ++ cops)
      terminal := p.terminal ++ transversality (augment p.costTerminal (nuNames "_nu_f_" p.terminal.length) p.terminal) (fun l d => l - d)
        (sts p ++ p.parameters) (cos ++ cops) ++
        [{ expr := (augment p.costTerminal (nuNames "_nu_f_" p.terminal.length) p.terminal).diff p.ind + hamiltonianOf p.costPath p.states }]
      chain := p.chain ++ [.dualize cos.length (p.adjoints ++ nuNames "_nu_0_" p.initial.length ++ nuNames "_nu_f_" p.terminal.length).length]
      dualized := true } := by
  rw [dualize] at h
  split at h
  · cases h
  · have zero : ∀ {l : List Name} {d : Dyn}, d ∈ l.map (fun n => (⟨lamName n, 0⟩ : Dyn)) → ∀ s, s ∉ d.eom.free := by
      intro l d hd s hs
      obtain ⟨n, -, rfl⟩ := List.mem_map.1 hd
      cases hs
    dsimp only at h
    simp only [hc, hcp, List.nil_append] at h
    cases m with
    | traditional =>
      obtain ⟨_, hm, h⟩ := bind_ok h
      cases hm
      cases h
      refine ⟨_, _, _, _, _, ?_, ?_, ?_, rfl⟩
      · rw [List.map_take, setEoms_names, ← List.map_take, List.take_left]
        simp [sts, List.map_map, Function.comp_def]
      · rw [List.map_drop, setEoms_names, ← List.map_drop, List.drop_left]
        simp [List.map_map, Function.comp_def]
      · intro d hd s hs
        rw [List.take_append_drop] at hd
        rcases setEoms_mem hd with h1 | ⟨d0, h0, h1⟩
        · obtain ⟨n, -, h1⟩ := List.mem_map.1 h1
          rw [← h1] at hs
          have hs : s ∈ [] ++ ((hamiltonianOf p.costPath p.states).diff n).free := hs
          rw [List.nil_append] at hs
          exact mem_free_diff hs
        · rw [h1] at hs
          rcases List.mem_append.1 h0 with h0 | h0
          · exact absurd hs (zero h0 s)
          · exact absurd hs (zero h0 s)
    | diffyg =>
      dsimp only at h
      split at h
      · cases h
      · obtain ⟨chi, hchi, h⟩ := bind_ok h
        obtain ⟨stars, -, h⟩ := bind_ok h
        cases h
        refine ⟨_, _, _, _, _, ?_, ?_, ?_, rfl⟩
        · rw [setEoms_names]
          simp [sts, List.map_map, Function.comp_def]
        · simp [List.map_map, Function.comp_def]
        · intro d hd s hs
          rcases List.mem_append.1 hd with hd | hd
          · rcases setEoms_mem hd with h1 | ⟨d0, h0, h1⟩
            · rcases vectorField_free hS hchi (List.mem_of_mem_drop h1) hs with h2 | ⟨r, hr, mm, hmm, h2⟩
              · exact h2
              · exact absurd h2 (free_standardForm hr hmm)
            · rw [h1] at hs
              exact absurd hs (zero h0 s)
          · exact absurd hs (zero hd s)
    | other =>
      obtain ⟨_, hm, h⟩ := bind_ok h
      cases hm
      cases h
      refine ⟨_, _, _, _, _, ?_, ?_, ?_, rfl⟩
      · simp [sts, List.map_map, Function.comp_def]
      · simp [List.map_map, Function.comp_def]
      · intro d hd s hs
        rcases List.mem_append.1 hd with hd | hd
        · exact absurd hs (zero hd s)
        · exact absurd hs (zero hd s)

theorem free_augment {cost : Expr} {nus : List Name} {cons : List Con} {s : Name} (h : s ∈ (augment cost nus cons).free) :
    s ∈ cost.free ∨ s ∈ nus ∨ ∃ c ∈ cons, s ∈ c.expr.free := by
  rw [augment] at h
  rcases foldl_add_free (fun nc : Name × Con => sym nc.1 * nc.2.expr) s _ _ h with h | ⟨nc, hn, h⟩
  · exact Or.inl h
  · have hm := List.of_mem_zip hn
    have h : s ∈ [nc.1] ++ nc.2.expr.free := h
    simp only [List.mem_append, List.mem_singleton] at h
    rcases h with rfl | h
    · exact Or.inr (Or.inl hm.1)
    · exact Or.inr (Or.inr ⟨nc.2, hm.2, h⟩)

theorem free_transversality {cost : Expr} {sign : Expr → Expr → Expr} (hsign : ∀ l d s, s ∈ (sign l d).free → s ∈ l.free ∨ s ∈ d.free)
    {syms : List Name} {lams : List Dyn} {c : Con} (hc : c ∈ transversality cost sign syms lams) {s : Name} (hs : s ∈ c.expr.free) :
    s ∈ lams.map Dyn.name ∨ s ∈ cost.free := by
  obtain ⟨sl, hsl, rfl⟩ := List.mem_map.1 hc
  rcases hsign _ _ s hs with h | h
  · left
    have : s = sl.2.name := by simpa [free] using h
    exact List.mem_map.2 ⟨sl.2, (List.of_mem_zip hsl).2, this.symm⟩
  · exact Or.inr (mem_free_diff h)

theorem ready_dualize {S : Sympy} (hS : Tidy S) {m : Method} {p p' : Prob} (hp : Ready p) (h : dualize S m p = .ok p') : Scoped p' := by
  obtain ⟨cos, cops, sy, om, cm, n1, n2, hfree, hp'⟩ := dualize_ok hS hp.start.1 hp.start.2.1 h
  have e_st : p'.states = p.states := by rw [hp']
  have e_co : p'.costates = cos := by rw [hp']
  have e_pa : p'.parameters = p.parameters := by rw [hp']
  have e_cs : p'.constants = p.constants := by rw [hp']
  have e_ct : p'.controls = p.controls := by rw [hp']
  have e_cop : p'.coparameters = cops := by rw [hp']
  have e_q : p'.quads = p.quads := by rw [hp']
  have e_cps : p'.constraintParams = p.constraintParams := by rw [hp']
  have e_adj : p'.adjoints = p.adjoints ++ nuNames "_nu_0_" p.initial.length ++ nuNames "_nu_f_" p.terminal.length := by rw [hp']
  have e_ham : p'.hamiltonian = some (hamiltonianOf p.costPath p.states) := by rw [hp']
  have e_law : p'.controlLaw = p.controlLaw := by rw [hp']
  have hA : ∀ s, s ∈ allNames p' ↔ s ∈ fixedNames p ∨ s ∈ cos.map Dyn.name := by
    intro s
    simp only [allNames, fixedNames, e_st, e_co, e_pa, e_cs, List.mem_append, sts]
    tauto
  have hq : qds p' = qds p := by rw [qds, e_q]; rfl
  have hlam : ∀ d ∈ p.states, lamName d.name ∈ cos.map Dyn.name := by
    intro d hd
    rw [n1]
    exact List.mem_map.2 ⟨d.name, List.mem_map.2 ⟨d, hd, rfl⟩, rfl⟩
  have hpath : ∀ e ∈ pathExprs p, Uses e (allNames p' ++ p'.controls) := by
    intro e he s hs
    have := hp.path e he s hs
    have h2 := hA s
    rw [e_ct]
    simp only [List.mem_append] at this ⊢
    tauto
  have hH : Uses (hamiltonianOf p.costPath p.states) (allNames p' ++ p'.controls) := by
    intro s hs
    rw [hamiltonianOf] at hs
    rcases foldl_add_free (fun d : Dyn => sym (lamName d.name) * d.eom) s _ _ hs with h1 | ⟨d, hd, h1⟩
    · exact hpath _ (by simp [pathExprs]) s h1
    · have h1 : s ∈ [lamName d.name] ++ d.eom.free := h1
      simp only [List.mem_append, List.mem_singleton] at h1
      rcases h1 with rfl | h1
      · exact List.mem_append_left _ ((hA _).2 (Or.inr (hlam d hd)))
      · exact hpath d.eom (by simp only [pathExprs, List.mem_append]; exact Or.inl (Or.inl (Or.inl (List.mem_map.2 ⟨d, hd, rfl⟩)))) s h1
  have hends : ∀ e ∈ endExprs p, Uses e (allNames p' ++ p'.controls ++ qds p' ++ p'.coparameters.map Dyn.name ++ p'.constraintParams ++ p'.adjoints) := by
    intro e he s hs
    have h1 := hp.ends e he s hs
    have h2 := (hA s).2
    rw [e_ct, e_cps, hq]
    simp only [List.mem_append] at h1 ⊢
    tauto
  have hexpr : ∀ c ∈ p.initial ++ p.terminal, c.expr ∈ endExprs p := fun c hc => mem_endExprs hc (by simp [parts])
  have hadj0 : ∀ s ∈ nuNames "_nu_0_" p.initial.length, s ∈ p'.adjoints := by
    intro s hs
    simp only [e_adj, List.mem_append]; tauto
  have hadjf : ∀ s ∈ nuNames "_nu_f_" p.terminal.length, s ∈ p'.adjoints := by
    intro s hs
    simp only [e_adj, List.mem_append]; tauto
  have haug0 : Uses (augment p.costInitial (nuNames "_nu_0_" p.initial.length) p.initial)
      (allNames p' ++ p'.controls ++ qds p' ++ p'.coparameters.map Dyn.name ++ p'.constraintParams ++ p'.adjoints) := by
    intro s hs
    rcases free_augment hs with h1 | h1 | ⟨c, hc, h1⟩
    · exact hends _ (by simp [endExprs]) s h1
    · exact List.mem_append_right _ (hadj0 s h1)
    · exact hends _ (hexpr c (List.mem_append_left _ hc)) s h1
  have haugf : Uses (augment p.costTerminal (nuNames "_nu_f_" p.terminal.length) p.terminal)
      (allNames p' ++ p'.controls ++ qds p' ++ p'.coparameters.map Dyn.name ++ p'.constraintParams ++ p'.adjoints) := by
    intro s hs
    rcases free_augment hs with h1 | h1 | ⟨c, hc, h1⟩
    · exact hends _ (by simp [endExprs]) s h1
    · exact List.mem_append_right _ (hadjf s h1)
    · exact hends _ (hexpr c (List.mem_append_right _ hc)) s h1
  have hlams : ∀ s ∈ (cos ++ cops).map Dyn.name,
      s ∈ allNames p' ++ p'.controls ++ qds p' ++ p'.coparameters.map Dyn.name ++ p'.constraintParams ++ p'.adjoints := by
    intro s hs
    rw [List.map_append, List.mem_append] at hs
    have h2 := (hA s).2
    rw [e_cop]
    simp only [List.mem_append]
    tauto
  refine ⟨?_, ?_, ⟨_, e_ham, hH⟩, ?_⟩
  · intro d hd
    simp only [e_st, e_co, e_q, e_cop, List.mem_append] at hd
    rcases hd with ((hd | hd) | hd) | hd
    · exact hpath d.eom (by simp only [pathExprs, List.mem_append]; exact Or.inl (Or.inl (Or.inl (List.mem_map.2 ⟨d, hd, rfl⟩))))
    · exact fun s hs => hH s (hfree d (List.mem_append_left _ hd) s hs)
    · exact hpath d.eom (by simp only [pathExprs, List.mem_append]; exact Or.inl (Or.inl (Or.inr (List.mem_map.2 ⟨d, hd, rfl⟩))))
    · exact fun s hs => hH s (hfree d (List.mem_append_right _ hd) s hs)
  · intro c hc s hs
    have hc : c ∈ (p.initial ++ transversality (augment p.costInitial (nuNames "_nu_0_" p.initial.length) p.initial) (fun l d => l + d)
        (sts p ++ p.parameters) (cos ++ cops)) ++ (p.terminal ++ transversality (augment p.costTerminal (nuNames "_nu_f_" p.terminal.length) p.terminal)
        (fun l d => l - d) (sts p ++ p.parameters) (cos ++ cops) ++
        [{ expr := (augment p.costTerminal (nuNames "_nu_f_" p.terminal.length) p.terminal).diff p.ind + hamiltonianOf p.costPath p.states }]) := by rw [hp'] at hc; exact hc
    simp only [List.mem_append, List.mem_singleton] at hc
    rcases hc with (hc | hc) | (hc | hc) | rfl
    · exact hends _ (hexpr c (List.mem_append_left _ hc)) s hs
    · rcases free_transversality (fun l d s h => by
        have h : s ∈ l.free ++ d.free := h
        exact List.mem_append.1 h) hc hs with h1 | h1
      · exact hlams s h1
      · exact haug0 s h1
    · exact hends _ (hexpr c (List.mem_append_right _ hc)) s hs
    · rcases free_transversality (fun l d s h => by
        have h : s ∈ l.free ++ ([] ++ d.free) := h
        simpa using h) hc hs with h1 | h1
      · exact hlams s h1
      · exact haugf s h1
    · have hs : s ∈ ((augment p.costTerminal (nuNames "_nu_f_" p.terminal.length) p.terminal).diff p.ind).free ++
        (hamiltonianOf p.costPath p.states).free := hs
      rcases List.mem_append.1 hs with h1 | h1
      · exact haugf s (mem_free_diff h1)
      · have := hH s h1
        simp only [List.mem_append] at this ⊢
        tauto
  · intro o ho
    rw [e_law, hp.start.2.2] at ho
    cases ho

theorem scoped_algebraic {S : Sympy} (hS : Tidy S) {p p' : Prob} (hp : Scoped p) (h : algebraicControl S p = .ok p') : Scoped p' := by
  obtain ⟨H, hH, hU⟩ := hp.ham
  obtain ⟨dhdu, chain, e, hlaw⟩ := algebraic_ok hH h
  rw [e]
  refine ⟨hp.rates, hp.bcs, ⟨H, hH, hU⟩, ?_⟩
  intro o ho
  obtain ⟨sol, hsol, hpick⟩ := forall₂_right hlaw o ho
  have hp2 := pickOption_ok hpick
  refine ⟨hp2.length_eq.symm, ?_⟩
  intro e he s hs
  obtain ⟨u, hu, hl⟩ := forall₂_right hp2 e he
  have hall : ∀ u ∈ p.controls, (sol.lookup u).isSome := by
    intro u hu
    obtain ⟨e', -, h1⟩ := forall₂_left hp2 u hu
    rw [h1]; rfl
  obtain ⟨h1, q, hq, h2⟩ := hS.solve _ _ sol hsol hall u hu e hl s hs
  obtain ⟨v, -, rfl⟩ := List.mem_map.1 hq
  exact (List.mem_append.1 (hU s (mem_free_diff h2))).resolve_right h1

theorem free_negDot {row eom : List Expr} {s : Name} (h : s ∈ (negDot row eom).free) :
    (∃ e ∈ row, s ∈ e.free) ∨ ∃ e ∈ eom, s ∈ e.free := by
  have h : s ∈ [] ++ ((row.zip eom).foldl (fun acc (ab : Expr × Expr) => acc + ab.1 * ab.2) (0 : Expr)).free := h
  rw [List.nil_append] at h
  rcases foldl_add_free (fun ab : Expr × Expr => ab.1 * ab.2) s _ _ h with h | ⟨ab, hab, h⟩
  · cases h
  · have h : s ∈ ab.1.free ++ ab.2.free := h
    have hm := List.of_mem_zip hab
    rcases List.mem_append.1 h with h | h
    · exact Or.inl ⟨ab.1, hm.1, h⟩
    · exact Or.inr ⟨ab.2, hm.2, h⟩

theorem udot_free {S : Sympy} (hS : Tidy S) {p : Prob} (hp : Scoped p) {H : Expr} (hH : p.hamiltonian = some H) {udot : List Expr}
    (h : S.lu (ctlMatrix H p.controls) (ctlRhs H p.controls p.dyn) = .ok udot) :
    udot.length = p.controls.length ∧ ∀ e ∈ udot, Uses e (allNames p ++ p.controls) := by
  obtain ⟨H', hH', hU⟩ := hp.ham
  rw [hH] at hH'
  cases hH'
  have hg : ∀ r ∈ gOf H p.controls, ∀ s ∈ r.free, s ∈ H.free := by
    intro r hr s hs
    obtain ⟨u, -, rfl⟩ := List.mem_map.1 hr
    exact mem_free_diff hs
  constructor
  · have := hS.size _ _ _ h (by
      intro r hr
      obtain ⟨r0, -, rfl⟩ := List.mem_map.1 hr
      simp [ctlMatrix, gOf])
    rw [this]
    simp [ctlMatrix, gOf]
  · intro e he s hs
    rcases hS.lu _ _ _ h e he s hs with ⟨r, hr, m, hm, h1⟩ | ⟨c, hc, h1⟩
    · obtain ⟨r0, h0, rfl⟩ := List.mem_map.1 hr
      obtain ⟨u, -, rfl⟩ := List.mem_map.1 hm
      exact hU s (hg r0 h0 s (mem_free_diff h1))
    · obtain ⟨r0, h0, rfl⟩ := List.mem_map.1 hc
      rcases free_negDot h1 with ⟨e', he', h2⟩ | ⟨e', he', h2⟩
      · obtain ⟨x, -, rfl⟩ := List.mem_map.1 he'
        exact hU s (hg r0 h0 s (mem_free_diff h2))
      · obtain ⟨d, hd, rfl⟩ := List.mem_map.1 he'
        exact hp.rates d (List.mem_append_left _ (List.mem_append_left _ hd)) s h2

theorem ctlStates_names {controls : List Name} {udot : List Expr} (h : udot.length = controls.length) :
    (ctlStates controls udot).map Dyn.name = controls := by
  have : (ctlStates controls udot).map Dyn.name = (controls.zip udot).map Prod.fst := by
    simp [ctlStates, List.map_map, Function.comp_def]
  rw [this, List.map_fst_zip (by omega)]

theorem differential_diffyg {S : Sympy} {p p' : Prob} (h : differentialControl S .diffyg p = .ok p') :
    p.dualized = true ∧ p.controls ≠ [] ∧ ∃ H udot chi, p.hamiltonian = some H ∧
      S.lu (ctlMatrix H p.controls) (ctlRhs H p.controls p.dyn) = .ok udot ∧
      (p.states ++ ctlStates p.controls udot).length =
        (p.costates ++ (ctlStates p.controls udot).map fun d => (⟨lamName d.name, 0⟩ : Dyn)).length ∧
      vectorField S H (controlForm (p.states ++ ctlStates p.controls udot).length p.controls.length (p.states.length - 1) udot)
        ((p.states ++ ctlStates p.controls udot ++
          (p.costates ++ (ctlStates p.controls udot).map fun d => (⟨lamName d.name, 0⟩ : Dyn))).map Dyn.name) = .ok chi ∧
      p' = { p with
        terminal := p.terminal ++ (gOf H p.controls).map fun gk => ({ expr := gk } : Con)
        initial := p.initial ++ ((ctlStates p.controls udot).map fun d => (⟨lamName d.name, 0⟩ : Dyn)).map fun l => ({ expr := sym l.name } : Con)
        controls := []
        states := (setEoms (p.states ++ ctlStates p.controls udot ++
          (p.costates ++ (ctlStates p.controls udot).map fun d => (⟨lamName d.name, 0⟩ : Dyn))) chi).take (p.states ++ ctlStates p.controls udot).length
        costates := (setEoms (p.states ++ ctlStates p.controls udot ++
          (p.costates ++ (ctlStates p.controls udot).map fun d => (⟨lamName d.name, 0⟩ : Dyn))) chi).drop (p.states ++ ctlStates p.controls udot).length
        omega := some (controlForm (p.states ++ ctlStates p.controls udot).length p.controls.length (p.states.length - 1) udot)
        chain := p.chain ++ [.differentialDiffyG ((List.range (ctlStates p.controls udot).length).map (p.states.length + ·))] } := by
  rw [differentialControl] at h
  split at h
  · cases h
  · next hd =>
    cases hH : p.hamiltonian with
    | none => rw [hH] at h; cases h
    | some H =>
      rw [hH] at h
      dsimp only at h
      obtain ⟨dgdx, hx, h⟩ := bind_ok h
      obtain ⟨h1, -, rfl⟩ := jacobian_ok hx
      obtain ⟨dgdu, hu, h⟩ := bind_ok h
      obtain ⟨-, h2, rfl⟩ := jacobian_ok hu
      obtain ⟨udot, hlu, h⟩ := bind_ok h
      split at h
      · cases h
      · next hlen =>
        obtain ⟨chi, hchi, h⟩ := bind_ok h
        cases h
        refine ⟨by simpa using hd, h2, H, udot, chi, rfl, ?_, not_not.1 hlen, hchi, rfl⟩
        simpa only [ctlRhs, Prob.dyn, ctlMatrix, gOf, List.map_map, Function.comp_def] using hlu

theorem free_controlForm {n m k : Nat} {udot : List Expr} {r : List Expr} {e : Expr} {s : Name} (hr : r ∈ controlForm n m k udot)
    (he : e ∈ r) (hs : s ∈ e.free) : ∃ d ∈ udot, s ∈ d.free := by
  obtain ⟨i, -, rfl⟩ := List.mem_map.1 hr
  obtain ⟨j, -, rfl⟩ := List.mem_map.1 he
  have get : ∀ x : Nat, s ∈ (udot.getD x 0).free → ∃ d ∈ udot, s ∈ d.free := by
    intro x hx
    by_cases hlt : x < udot.length
    · refine ⟨udot[x], List.getElem_mem hlt, ?_⟩
      simpa [List.getD, List.getElem?_eq_getElem hlt] using hx
    · rw [List.getD, List.getElem?_eq_none (not_lt.1 hlt)] at hx
      cases hx
  split at hs
  · have hs : s ∈ [] ++ (udot.getD (j - (2 * n - m)) 0).free := hs
    rw [List.nil_append] at hs
    exact get _ hs
  · split at hs
    · exact get _ hs
    · split at hs
      · cases hs
      · split at hs <;> cases hs

theorem scoped_differential {S : Sympy} (hS : Tidy S) {m : Method} {p p' : Prob} (hp : Scoped p) (hl : p.controlLaw = [])
    (h : differentialControl S m p = .ok p') : Scoped p' ∧ p'.controls = [] := by
  cases m with
  | traditional =>
    obtain ⟨-, -, H, udot, hH, hlu, hp'⟩ := differential_traditional h
    obtain ⟨hlen, hU⟩ := udot_free hS hp hH hlu
    have hn := ctlStates_names hlen
    have e_ct : p'.controls = [] := by
      rw [hp']
      have : (ctlStates p.controls udot).length = p.controls.length := by rw [← List.length_map (f := Dyn.name), hn]
      simp [this]
    have hA : ∀ s, s ∈ allNames p ++ p.controls ↔ s ∈ allNames p' ++ p'.controls := by
      intro s
      rw [e_ct, hp']
      simp only [allNames, sts, List.map_append, hn, List.mem_append, List.not_mem_nil, or_false]
      tauto
    obtain ⟨H', hH', hU'⟩ := hp.ham
    rw [hH] at hH'
    cases hH'
    have e_q : qds p' = qds p := by rw [hp']; rfl
    have e_cop : p'.coparameters = p.coparameters := by rw [hp']
    have e_cps : p'.constraintParams = p.constraintParams := by rw [hp']
    have e_adj : p'.adjoints = p.adjoints := by rw [hp']
    refine ⟨⟨?_, ?_, ⟨H, by rw [hp', ← hH], fun s hs => (hA s).1 (hU' s hs)⟩, ?_⟩, e_ct⟩
    · intro d hd s hs
      rw [← hA]
      have hd : d ∈ p.states ++ p.costates ++ p.quads ++ p.coparameters ∨ d ∈ ctlStates p.controls udot := by
        rw [hp'] at hd
        simp only [List.mem_append] at hd ⊢
        tauto
      rcases hd with hd | hd
      · exact hp.rates d hd s hs
      · obtain ⟨cu, hcu, rfl⟩ := List.mem_map.1 hd
        exact hU cu.2 (List.of_mem_zip hcu).2 s hs
    · intro c hc s hs
      rw [e_q, e_cop, e_cps, e_adj]
      have hA := hA s
      have hc : c ∈ p.initial ++ p.terminal ∨ ∃ g ∈ gOf H p.controls, c.expr = g := by
        rw [hp'] at hc
        simp only [List.mem_append, List.mem_map] at hc ⊢
        rcases hc with hc | hc | ⟨g, hg, rfl⟩
        · tauto
        · tauto
        · exact Or.inr ⟨g, hg, rfl⟩
      rcases hc with hc | ⟨g, hg, hc⟩
      · have := hp.bcs c hc s hs
        simp only [List.mem_append] at this hA ⊢
        tauto
      · obtain ⟨u, -, rfl⟩ := List.mem_map.1 hg
        rw [hc] at hs
        have := hA.1 (hU' s (mem_free_diff hs))
        simp only [List.mem_append] at this ⊢
        tauto
    · intro o ho
      rw [hp'] at ho
      have ho : o ∈ p.controlLaw := ho
      rw [hl] at ho
      cases ho
  | diffyg =>
    obtain ⟨-, -, H, udot, chi, hH, hlu, hlen2, hchi, hp'⟩ := differential_diffyg h
    obtain ⟨hlen, hU⟩ := udot_free hS hp hH hlu
    have hn := ctlStates_names hlen
    obtain ⟨H', hH', hU'⟩ := hp.ham
    rw [hH] at hH'
    cases hH'
    generalize hctl : ctlStates p.controls udot = ctl at *
    generalize hlm : (ctl.map fun d => (⟨lamName d.name, 0⟩ : Dyn)) = lams at *
    have e_ct : p'.controls = [] := by rw [hp']
    have e_st : sts p' = sts p ++ p.controls := by
      rw [hp', sts, List.map_take, setEoms_names, ← List.map_take, List.take_left, List.map_append, hn, sts]
    have e_co : p'.costates.map Dyn.name = p.costates.map Dyn.name ++ lams.map Dyn.name := by
      rw [hp', List.map_drop, setEoms_names, ← List.map_drop, List.drop_left, List.map_append]
    have e_pa : p'.parameters = p.parameters := by rw [hp']
    have e_cs : p'.constants = p.constants := by rw [hp']
    have e_q : p'.quads = p.quads := by rw [hp']
    have e_cop : p'.coparameters = p.coparameters := by rw [hp']
    have e_cps : p'.constraintParams = p.constraintParams := by rw [hp']
    have e_adj : p'.adjoints = p.adjoints := by rw [hp']
    have hA : ∀ s, s ∈ allNames p ++ p.controls → s ∈ allNames p' ++ p'.controls := by
      intro s hs
      simp only [allNames, e_ct, e_st, e_co, e_pa, e_cs, List.mem_append] at hs ⊢
      tauto
    have hlam : ∀ s ∈ lams.map Dyn.name, s ∈ allNames p' := by
      intro s hs
      simp only [allNames, e_co, List.mem_append]
      tauto
    have hold : ∀ d ∈ p.states ++ ctl ++ (p.costates ++ lams), Uses d.eom (allNames p' ++ p'.controls) := by
      intro d hd s hs
      simp only [List.mem_append] at hd
      rcases hd with (hd | hd) | hd | hd
      · exact hA s (hp.rates d (by simp [hd]) s hs)
      · rw [← hctl] at hd
        obtain ⟨cu, hcu, rfl⟩ := List.mem_map.1 hd
        exact hA s (hU cu.2 (List.of_mem_zip hcu).2 s hs)
      · exact hA s (hp.rates d (by simp [hd]) s hs)
      · rw [← hlm] at hd
        obtain ⟨d0, -, rfl⟩ := List.mem_map.1 hd
        cases hs
    have hnew : ∀ d ∈ setEoms (p.states ++ ctl ++ (p.costates ++ lams)) chi, Uses d.eom (allNames p' ++ p'.controls) := by
      intro d hd s hs
      rcases setEoms_mem hd with h1 | ⟨d0, h0, h1⟩
      · rcases vectorField_free hS hchi h1 hs with h2 | ⟨r, hr, mm, hmm, h2⟩
        · exact hA s (hU' s h2)
        · obtain ⟨e, he, h3⟩ := free_controlForm hr hmm h2
          exact hA s (hU e he s h3)
      · rw [h1] at hs
        exact hold d0 h0 s hs
    refine ⟨⟨?_, ?_, ⟨H, by rw [hp', ← hH], fun s hs => hA s (hU' s hs)⟩, ?_⟩, e_ct⟩
    · intro d hd
      rw [e_q, e_cop] at hd
      simp only [List.mem_append] at hd
      rcases hd with ((hd | hd) | hd) | hd
      · rw [hp'] at hd
        exact hnew d (List.mem_of_mem_take hd)
      · rw [hp'] at hd
        exact hnew d (List.mem_of_mem_drop hd)
      · exact fun s hs => hA s (hp.rates d (by simp [hd]) s hs)
      · exact fun s hs => hA s (hp.rates d (by simp [hd]) s hs)
    · intro c hc s hs
      rw [show qds p' = qds p by rw [qds, e_q, qds], e_cop, e_cps, e_adj]
      have hA := hA s
      have hc : c ∈ p.initial ++ p.terminal ∨ (∃ g ∈ gOf H p.controls, c.expr = g) ∨ ∃ l ∈ lams, c.expr = sym l.name := by
        rw [hp'] at hc
        simp only [List.mem_append, List.mem_map] at hc ⊢
        rcases hc with (hc | ⟨l, hl, rfl⟩) | hc | ⟨g, hg, rfl⟩
        · tauto
        · exact Or.inr (Or.inr ⟨l, hl, rfl⟩)
        · tauto
        · exact Or.inr (Or.inl ⟨g, hg, rfl⟩)
      rcases hc with hc | ⟨g, hg, hc⟩ | ⟨l, hl, hc⟩
      · have := hp.bcs c hc s hs
        simp only [List.mem_append] at this hA ⊢
        tauto
      · obtain ⟨u, -, rfl⟩ := List.mem_map.1 hg
        rw [hc] at hs
        have := hA (hU' s (mem_free_diff hs))
        simp only [List.mem_append] at this ⊢
        tauto
      · rw [hc] at hs
        have hs : s = l.name := by simpa [free] using hs
        have := hlam s (List.mem_map.2 ⟨l, hl, hs.symm⟩)
        simp only [List.mem_append]
        tauto
    · intro o ho
      rw [hp'] at ho
      have ho : o ∈ p.controlLaw := ho
      rw [hl] at ho
      cases ho
  | other =>
    rw [differentialControl] at h
    split at h
    · cases h
    · cases hH : p.hamiltonian with
      | none => rw [hH] at h; cases h
      | some H =>
        rw [hH] at h
        dsimp only at h
        obtain ⟨dgdx, hx, h⟩ := bind_ok h
        obtain ⟨dgdu, hu, h⟩ := bind_ok h
        obtain ⟨udot, hlu, h⟩ := bind_ok h
        cases h

theorem scoped_normalizeTime {p p' : Prob} (hp : Scoped p) (h : normalizeTime p = .ok p') : Scoped p' := by
  have hp' := normalizeTime_ok h
  have hA : ∀ s, s ∈ allNames p ∨ s = "_delta" ++ p.ind ↔ s ∈ allNames p' := by
    intro s
    rw [hp']
    simp only [allNames, sts, List.map_map, Function.comp_def, List.mem_append, List.mem_singleton]
    tauto
  have e_ct : p'.controls = p.controls := by rw [hp']
  have e_q : p'.quads = p.quads := by rw [hp']
  have e_cop : p'.coparameters = p.coparameters := by rw [hp']
  have e_cps : p'.constraintParams = p.constraintParams := by rw [hp']
  have e_adj : p'.adjoints = p.adjoints := by rw [hp']
  have e_law : p'.controlLaw = p.controlLaw := by rw [hp']
  have e_ham : p'.hamiltonian = p.hamiltonian := by rw [hp']
  have up : ∀ s, s ∈ allNames p ++ p.controls → s ∈ allNames p' ++ p'.controls := by
    intro s hs
    have := hA s
    rw [e_ct]
    simp only [List.mem_append] at hs ⊢
    tauto
  have mul : ∀ (e : Expr) (s : Name), Uses e (allNames p ++ p.controls) → s ∈ (e * sym ("_delta" ++ p.ind)).free →
      s ∈ allNames p' ++ p'.controls := by
    intro e s he hs
    have hs : s ∈ e.free ++ ["_delta" ++ p.ind] := hs
    simp only [List.mem_append, List.mem_singleton] at hs
    rcases hs with hs | hs
    · exact up s (he s hs)
    · exact List.mem_append_left _ ((hA s).1 (Or.inr hs))
  obtain ⟨H, hH, hU⟩ := hp.ham
  refine ⟨?_, ?_, ⟨H, by rw [e_ham, hH], fun s hs => up s (hU s hs)⟩, ?_⟩
  · intro d hd s hs
    rw [e_q, e_cop] at hd
    simp only [List.mem_append] at hd
    rcases hd with ((hd | hd) | hd) | hd
    · rw [hp'] at hd
      obtain ⟨d0, h0, rfl⟩ := List.mem_map.1 hd
      exact mul d0.eom s (hp.rates d0 (by simp [h0])) hs
    · rw [hp'] at hd
      obtain ⟨d0, h0, rfl⟩ := List.mem_map.1 hd
      exact mul d0.eom s (hp.rates d0 (by simp [h0])) hs
    · exact up s (hp.rates d (by simp [hd]) s hs)
    · exact up s (hp.rates d (by simp [hd]) s hs)
  · intro c hc s hs
    rw [show qds p' = qds p by rw [qds, e_q, qds], e_cop, e_cps, e_adj]
    have := hp.bcs c (by rw [hp'] at hc; exact hc) s hs
    have hA := up s
    simp only [List.mem_append] at this hA ⊢
    tauto
  · intro o ho
    rw [e_law] at ho
    obtain ⟨h1, h2⟩ := hp.law o ho
    refine ⟨by rw [e_ct, h1], fun e he s hs => (hA s).1 (Or.inl (h2 e he s hs))⟩

theorem scoped_squash {p p' : Prob} (hp : Scoped p) (h : squash p = .ok p') :
    Scoped p' ∧ p'.costates = [] ∧ p'.coparameters = [] ∧ p'.adjoints = [] := by
  have e_st : p'.states = p.states ++ p.costates := by cases h; rfl
  have e_co : p'.costates = [] := by cases h; rfl
  have e_pa : p'.parameters = p.parameters := by cases h; rfl
  have e_cs : p'.constants = p.constants := by cases h; rfl
  have e_ct : p'.controls = p.controls := by cases h; rfl
  have e_q : p'.quads = p.quads ++ p.coparameters := by cases h; rfl
  have e_cop : p'.coparameters = [] := by cases h; rfl
  have e_cps : p'.constraintParams = p.constraintParams ++ p.adjoints := by cases h; rfl
  have e_adj : p'.adjoints = [] := by cases h; rfl
  have e_law : p'.controlLaw = p.controlLaw := by cases h; rfl
  have e_ham : p'.hamiltonian = p.hamiltonian := by cases h; rfl
  have e_bc : p'.initial ++ p'.terminal = p.initial ++ p.terminal := by cases h; rfl
  obtain ⟨H, hH, hU⟩ := hp.ham
  have hA : ∀ s, s ∈ allNames p ↔ s ∈ allNames p' := by
    intro s
    simp only [allNames, sts, e_st, e_co, e_pa, e_cs, List.map_append, List.map_nil, List.mem_append, List.not_mem_nil, or_false]
  refine ⟨⟨?_, ?_, ⟨H, by rw [e_ham, hH], ?_⟩, ?_⟩, e_co, e_cop, e_adj⟩
  · intro d hd s hs
    rw [e_st, e_co, e_q, e_cop] at hd
    have h1 := hp.rates d (by simp only [List.mem_append, List.not_mem_nil, or_false] at hd ⊢; tauto) s hs
    rw [List.mem_append, hA] at h1
    rw [e_ct, List.mem_append]
    exact h1
  · intro c hc s hs
    rw [e_bc] at hc
    have h1 := hp.bcs c hc s hs
    simp only [List.mem_append, qds, hA] at h1
    simp only [List.mem_append, qds, e_ct, e_q, e_cop, e_cps, e_adj, List.map_append, List.map_nil, List.not_mem_nil, or_false]
    tauto
  · intro s hs
    have h1 := hU s hs
    rw [List.mem_append, hA] at h1
    rw [e_ct, List.mem_append]
    exact h1
  · intro o ho
    rw [e_law] at ho
    obtain ⟨h1, h2⟩ := hp.law o ho
    exact ⟨by rw [e_ct, h1], fun e he s hs => (hA s).1 (h2 e he s hs)⟩

end Beluga.Scope
