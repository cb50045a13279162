import Verif.Homog.Dual

/-! # Dimensional consistency: control laws, time normalisation, `SquashToBVP` -/

namespace Beluga.Homog

open Beluga.Sym Beluga.Sym.Expr Beluga.Num

variable {U : Name → Nat → ℝ → ℝ} {Γ : Name → Expr}

/-- The last state has the unit of the independent variable (it is the time that `MomentumShift` has added). -/
def LastTime (U : Name → Nat → ℝ → ℝ) (Γ : Name → Expr) (p : Prob) : Prop :=
  ∃ l n, p.states.map Dyn.name = l ++ [n] ∧ SameUnit U (Γ n) (Γ p.ind)

theorem mapM_forall₂ {α β : Type} {f : α → Py β} : ∀ {l : List α} {ys : List β}, l.mapM f = .ok ys →
    List.Forall₂ (fun a b => f a = .ok b) l ys
  | [], ys, h => by cases h; exact .nil
  | x :: l, ys, h => by
    rw [List.mapM_cons] at h
    obtain ⟨y, hy, h⟩ := bind_ok h
    obtain ⟨zs, hz, h⟩ := bind_ok h
    cases h
    exact .cons hy (mapM_forall₂ hz)

theorem forall₂_mem_right {α β : Type} {R : α → β → Prop} : ∀ {l : List α} {ys : List β}, List.Forall₂ R l ys →
    ∀ {y}, y ∈ ys → ∃ x ∈ l, R x y
  | _, _, .nil, y, h => by simp at h
  | _, _, .cons h1 t, y, h => by
    rcases List.mem_cons.1 h with rfl | h
    · exact ⟨_, by simp, h1⟩
    · obtain ⟨x, h2, h3⟩ := forall₂_mem_right t h
      exact ⟨x, by simp [h2], h3⟩

theorem algebraic_homog (hΓ : ∀ s, IsUnit U (Γ s)) {S : Sympy} (hS : SolveDim U Γ S) {w : Expr} {p p' : Prob} {T : Tab}
    (h : Consistent U Γ w p T) (hp : algebraicControl S p = .ok p') :
    Consistent U Γ w p' T ∧ p'.ind = p.ind ∧ p'.parameters = p.parameters ∧ p'.quads = p.quads := by
  rw [algebraicControl] at hp
  split at hp
  · cases hp
  · split at hp
    · cases hp
    · next H hH =>
      obtain ⟨law, hl, hp⟩ := bind_ok hp
      cases hp
      refine ⟨{ h with law := ?_ }, rfl, rfl, rfl⟩
      intro o ho
      dsimp only at ho ⊢
      have hsol := hS (p.controls.map fun u => H.diff u) p.controls (fun e he => by
        obtain ⟨u, -, rfl⟩ := List.mem_map.1 he
        exact ⟨_, Dim.diff hΓ u (h.hamiltonian H hH)⟩)
      replace hl := mapM_forall₂ hl
      obtain ⟨opt, hopt, hpick⟩ : ∃ opt ∈ S.solve (p.controls.map fun u => H.diff u) p.controls, pickOption p.controls opt = .ok o :=
        forall₂_mem_right hl ho
      rw [pickOption] at hpick
      refine (mapM_forall₂ hpick).imp fun u e he => ?_
      cases hlk : opt.lookup u with
      | none => rw [hlk] at he; cases he
      | some e' =>
        rw [hlk] at he
        cases he
        obtain ⟨l1, l2, e, -⟩ := List.lookup_eq_some_iff.1 hlk
        exact hsol opt hopt (u, _) (by rw [e]; simp)

/-- The control rates have the units of controls per time. -/
theorem udot_dim (hΓ : ∀ s, IsUnit U (Γ s)) {S : Sympy} (hL : LuDim U Γ S) {w H : Expr} {p : Prob} {T : Tab}
    (h : Consistent U Γ w p T) (hH : p.hamiltonian = some H) {udot : List Expr}
    (hu : S.lu (ctlMatrix H p.controls) (ctlRhs H p.controls p.dyn) = .ok udot) :
    ∀ (j : Nat) e, udot[j]? = some e → Dim U Γ e (Γ (p.controls.getD j "") / Γ p.ind) := by
  have hHd := h.hamiltonian H hH
  have hham := Dim.isUnit hΓ hHd
  have hlen : (ctlMatrix H p.controls).length = p.controls.length := by simp [ctlMatrix, gOf]
  refine hL _ _ _ (fun i => T.ham / Γ (p.controls.getD i "") / Γ p.ind) (fun j => Γ (p.controls.getD j "") / Γ p.ind) hu
    (fun i => IsUnit.div (IsUnit.div hham (hΓ _)) (hΓ _)) (fun j => IsUnit.div (hΓ _) (hΓ _)) (fun i hi j hj => ?_) (fun i hi => ?_)
  · rw [hlen] at hi hj
    have : entry (ctlMatrix H p.controls) i j = (H.diff (p.controls.getD i "")).diff (p.controls.getD j "") := by
      simp only [entry, ctlMatrix, gOf, List.getD, List.getElem?_map, List.getElem?_eq_getElem hi, List.getElem?_eq_getElem hj,
        Option.map_some, Option.getD_some]
    rw [this]
    refine .conv (Dim.diff hΓ _ (Dim.diff hΓ _ hHd)) fun φ hφ => ?_
    have a1 := (hΓ p.ind φ hφ).ne'
    simp only [eval_div]
    field_simp
  · rw [hlen] at hi
    have : (ctlRhs H p.controls p.dyn).getD i 0 =
        negDot ((p.dyn.map Dyn.name).map fun c => (H.diff (p.controls.getD i "")).diff c) (p.dyn.map Dyn.eom) := by
      simp only [ctlRhs, gOf, List.getD, List.getElem?_map, List.getElem?_eq_getElem hi, Option.map_some, Option.getD_some]
    rw [this, negDot]
    refine Dim.neg (Dim.foldl_add (f := fun ab : Expr × Expr => ab.1 * ab.2) _
      (.zero (IsUnit.div (IsUnit.div hham (hΓ _)) (hΓ _))) fun ab hab => ?_)
    have : ∃ d ∈ p.dyn, ab = ((H.diff (p.controls.getD i "")).diff d.name, d.eom) := by
      rw [List.map_map, List.zip_map', List.mem_map] at hab
      obtain ⟨d, hd, rfl⟩ := hab
      exact ⟨d, hd, rfl⟩
    obtain ⟨d, hd, rfl⟩ := this
    refine .conv (.mul (Dim.diff hΓ d.name (Dim.diff hΓ _ hHd)) (h.dyn d hd)) fun φ hφ => ?_
    have a1 := (hΓ d.name φ hφ).ne'
    simp only [eval_mul, eval_div]
    field_simp

theorem ctl_terminal (hΓ : ∀ s, IsUnit U (Γ s)) {w H : Expr} {p : Prob} {T : Tab}
    (h : Consistent U Γ w p T) (hT : Agrees Γ T) (hH : p.hamiltonian = some H) :
    List.Forall₂ (ConDim U Γ T.cost) (p.terminal ++ (gOf H p.controls).map fun gk => ({ expr := gk } : Con))
      (T.terminal ++ p.controls.map fun u => T.ham / T.of u) := by
  refine List.rel_append h.terminal ?_
  rw [gOf, List.map_map, List.forall₂_map_left_iff, List.forall₂_map_right_iff, List.forall₂_same]
  intro u hu
  refine ConDim.plain ?_
  rw [Tab.of_eq hT (h.named u (by simp [hu]))]
  exact Dim.diff hΓ u (h.hamiltonian H hH)

theorem ctlStates_dim {τ : Expr} {controls : List Name} {udot : List Expr}
    (h : ∀ (j : Nat) e, udot[j]? = some e → Dim U Γ e (Γ (controls.getD j "") / τ)) :
    ∀ d ∈ ctlStates controls udot, Dim U Γ d.eom (Γ d.name / τ) ∧ d.name ∈ controls := by
  intro d hd
  rw [ctlStates, List.mem_map] at hd
  obtain ⟨⟨u, e⟩, hm, rfl⟩ := hd
  obtain ⟨j, hj, he⟩ := List.mem_iff_getElem.1 hm
  rw [List.getElem_zip, Prod.mk.injEq] at he
  have h1 : j < controls.length := by simp at hj; omega
  have h2 : j < udot.length := by simp at hj; omega
  have := h j e (by rw [List.getElem?_eq_getElem h2, he.2])
  simp only [List.getD, List.getElem?_eq_getElem h1, Option.getD_some, he.1] at this
  exact ⟨this, he.1 ▸ List.getElem_mem h1⟩

theorem differential_homog (hΓ : ∀ s, IsUnit U (Γ s)) {S : Sympy} (hL : LuDim U Γ S) (hS : LuSound S) {m : Method} {w : Expr}
    {p p' : Prob} {T : Tab} (hlast : m = .diffyg → LastTime U Γ p) (h : Consistent U Γ w p T) (hd : Dualled Γ p T)
    (ha : Agrees Γ (uDifferential m p T)) (hp : differentialControl S m p = .ok p') :
    Consistent U Γ w p' (uDifferential m p T) ∧ p'.ind = p.ind ∧ p'.parameters = p.parameters ∧ p'.quads = p.quads := by
  cases m with
  | other =>
    rw [differentialControl] at hp
    split at hp
    · cases hp
    · split at hp
      · cases hp
      · obtain ⟨_, -, hp⟩ := bind_ok hp
        obtain ⟨_, -, hp⟩ := bind_ok hp
        obtain ⟨_, -, hp⟩ := bind_ok hp
        cases hp
  | traditional =>
    obtain ⟨-, -, H, udot, hH, hu, rfl⟩ := differential_traditional hp
    have hT : Agrees Γ T := ha
    have hctl := ctlStates_dim (udot_dim hΓ hL h hH hu)
    refine ⟨{ h with dyn := ?_, terminal := ctl_terminal hΓ h hT hH, law := ?_, named := ?_ }, rfl, rfl, rfl⟩
    · intro d hd
      simp only [List.append_assoc, List.mem_append] at hd
      rcases hd with hd | hd | hd
      · exact h.dyn d (List.mem_append_left _ hd)
      · exact (hctl d hd).1
      · exact h.dyn d (List.mem_append_right _ hd)
    · dsimp only
      rw [hd.law]
      simp
    · intro n hn
      have hnm := h.named n
      simp only [List.mem_cons, List.mem_append, List.map_append] at hn hnm
      dsimp only [uDifferential]
      rcases hn with hn | (((hn | hn) | hn) | hn) | hn
      · exact hnm (by tauto)
      · exact hnm (by tauto)
      · obtain ⟨d, hd, rfl⟩ := List.mem_map.1 hn
        exact hnm (.inr (.inr (hctl d hd).2))
      · exact hnm (by tauto)
      · exact hnm (by tauto)
      · exact hnm (.inr (.inr (List.mem_of_mem_drop hn)))
  | diffyg =>
    obtain ⟨-, -, H, udot, chi, hH, hu, hlen, hchi, rfl⟩ := differential_diffyg hp
    have hT : Agrees Γ T := fun x hx => ha x (by simp only [uDifferential]; exact List.mem_append_left _ hx)
    have hud := udot_dim hΓ hL h hH hu
    have hctl := ctlStates_dim hud
    have hcost := Dim.isUnit hΓ h.costInitial
    have hul : udot.length = p.controls.length := by
      rw [hS.length _ _ _ hu]
      simp [ctlMatrix, gOf]
    have hnames : (ctlStates p.controls udot).map Dyn.name = p.controls := by
      rw [ctlStates, List.map_map]
      exact List.map_fst_zip (le_of_eq hul.symm)
    have hlam : ∀ u ∈ p.controls, Γ (lamName u) = T.cost / Γ u := by
      intro u hu
      rw [← Tab.of_eq hT (h.named u (by simp [hu]))]
      exact ha (lamName u, T.cost / T.of u) (by
        simp only [uDifferential]
        exact List.mem_append_right _ (List.mem_map.2 ⟨u, hu, rfl⟩))
    set ns := p.states.map Dyn.name ++ p.controls with hns
    have hN : (p.states ++ ctlStates p.controls udot).length = ns.length := by
      simp [hns, ctlStates, hul]
    have hbasis : (p.states ++ ctlStates p.controls udot ++ (p.costates ++ (ctlStates p.controls udot).map fun d =>
        (⟨lamName d.name, 0⟩ : Dyn))).map Dyn.name = ns ++ ns.map lamName := by
      simp only [List.map_append, List.map_map, hnames, hd.costates, hns]
      congr 2
      rw [← hnames, List.map_map, hnames]
      rfl
    rw [hbasis, hN] at hchi
    obtain ⟨l, n, hl, hsame⟩ := hlast rfl
    have hstl : p.states.length = l.length + 1 := by
      have := congrArg List.length hl
      simpa using this
    have hchi' := vectorField_dim hL hΓ (h.hamiltonian H hH) (hΓ p.ind) hchi (by simp [controlForm]; omega)
      (form_dim hΓ hcost (hΓ _) (by rw [hd.ham]; exact SameUnit.refl _)
        (fun n hn => by
          rcases List.mem_append.1 hn with hn | hn
          · rw [hd.lam n hn]; exact SameUnit.refl _
          · rw [hlam n hn]; exact SameUnit.refl _)
        (by simp [hns])
        (fun _ => ⟨by simp [hns]; omega, by
          rw [hns, hl, hstl]
          simpa [List.getD] using hsame⟩)
        (fun q hq => by
          have h1 : ns.getD (ns.length - p.controls.length + q) "" = p.controls.getD q "" := by
            rw [hns, List.length_append, Nat.add_sub_cancel]
            simp [List.getD, List.getElem?_append_right]
          rw [h1]
          have h2 : q < udot.length := by omega
          have := hud q udot[q] (List.getElem?_eq_getElem h2)
          simpa only [List.getD, List.getElem?_eq_getElem h2, Option.getD_some] using this))
    have hall : ∀ d ∈ setEoms (p.states ++ ctlStates p.controls udot ++ (p.costates ++ (ctlStates p.controls udot).map fun d =>
        (⟨lamName d.name, 0⟩ : Dyn))) chi, Dim U Γ d.eom (Γ d.name / Γ p.ind) := by
      refine setEoms_dim (fun d hd => ?_) (fun i d e hd he => ?_)
      · simp only [List.mem_append, List.mem_map] at hd
        rcases hd with (hd | hd) | hd | ⟨x, -, rfl⟩
        · exact h.dyn d (List.mem_append_left _ hd)
        · exact (hctl d hd).1
        · exact h.dyn d (List.mem_append_right _ hd)
        · exact .zero (IsUnit.div (hΓ _) (hΓ _))
      · have := hchi' i e he
        rw [← hbasis] at this
        simpa only [List.getD, List.getElem?_map, hd, Option.map_some, Option.getD_some] using this
    refine ⟨{ h with dyn := ?_, initial := ?_, terminal := ctl_terminal hΓ h hT hH, law := ?_, named := ?_ }, rfl, rfl, rfl⟩
    · intro d hd
      dsimp only at hd
      rw [List.take_append_drop] at hd
      exact hall d hd
    · dsimp only [uDifferential]
      refine List.rel_append h.initial ?_
      rw [List.map_map]
      have : (ctlStates p.controls udot).map (fun d => ({ expr := sym (lamName d.name) } : Con)) =
          p.controls.map fun u => ({ expr := sym (lamName u) } : Con) := by
        conv_rhs => rw [← hnames, List.map_map]
        rfl
      rw [this, List.forall₂_map_left_iff, List.forall₂_map_right_iff, List.forall₂_same]
      intro u hu
      refine ConDim.plain ?_
      dsimp only [Function.comp]
      rw [Tab.of_eq hT (h.named u (by simp [hu])), ← hlam u hu]
      exact .sym _
    · dsimp only
      rw [hd.law]
      simp
    · intro n hn
      have hnm := h.named n
      dsimp only at hn
      rw [List.take_append_drop, setEoms_names, hbasis] at hn
      simp only [hns, List.mem_cons, List.mem_append, List.map_append, List.not_mem_nil, or_false] at hn hnm
      dsimp only [uDifferential]
      simp only [List.map_append, List.mem_append, List.map_map, Function.comp_def]
      rw [hd.costates] at hnm
      rcases hn with hn | ((hn | hn) | (hn | hn)) | hn
      · exact .inl (hnm (by tauto))
      · exact .inl (hnm (by tauto))
      · exact .inl (hnm (by tauto))
      · exact .inl (hnm (by tauto))
      · exact .inr hn
      · exact .inl (hnm (by tauto))

theorem normalize_homog (hΓ : ∀ s, IsUnit U (Γ s)) {w : Expr} {p p' : Prob} {T : Tab} (h : Consistent U Γ w p T)
    (ha : Agrees Γ (uNormalize p T)) (hp : normalizeTime p = .ok p') :
    Consistent U Γ w p' (uNormalize p T) ∧ p'.quads = p.quads := by
  rw [normalizeTime] at hp
  split at hp
  · cases hp
  · have hp := (Except.ok.inj hp).symm
    subst hp
    have hT : Agrees Γ T := fun x hx => ha x (by rw [uNormalize]; exact List.mem_append_left _ hx)
    have h1 : Γ ("_delta" ++ p.ind) = Γ p.ind := by
      rw [← Tab.of_eq hT (h.named p.ind (by simp))]
      exact ha ("_delta" ++ p.ind, T.of p.ind) (by simp [uNormalize])
    have h2 : Γ "_tau" = 1 := ha ("_tau", 1) (by simp [uNormalize])
    have key : ∀ {e d : Expr}, Dim U Γ e (d / Γ p.ind) → Dim U Γ (e * sym ("_delta" ++ p.ind)) (d / Γ "_tau") := by
      intro e d he
      refine .conv (.mul he (.sym _)) fun φ hφ => ?_
      rw [h1, h2, eval_mul, eval_div, eval_div, eval_one', div_mul_cancel₀ _ (hΓ p.ind φ hφ).ne', div_one]
    refine ⟨{ h with dyn := ?_, costPath := key h.costPath, named := ?_ }, rfl⟩
    · intro d hd
      simp only [← List.map_append, List.mem_map] at hd
      obtain ⟨d, hd, rfl⟩ := hd
      exact key (h.dyn d hd)
    · intro n hn
      have hnm := h.named n
      simp only [List.map_append, List.map_map, Function.comp_def, List.mem_cons, List.mem_append, List.not_mem_nil, or_false] at hn hnm
      simp only [uNormalize, List.map_append, List.mem_append, List.map_cons, List.map_nil, List.mem_cons, List.not_mem_nil, or_false]
      rcases hn with hn | (((hn | hn) | hn | hn) | hn)
      · exact .inr (.inr hn)
      · exact .inl (hnm (by tauto))
      · exact .inl (hnm (by tauto))
      · exact .inl (hnm (by tauto))
      · exact .inr (.inl hn)
      · exact .inl (hnm (by tauto))

theorem squash_homog {w : Expr} {p p' : Prob} {T : Tab} (h : Consistent U Γ w p T) (hp : squash p = .ok p') :
    Consistent U Γ w p' T ∧ p'.ind = p.ind := by
  rw [squash] at hp
  have hp := (Except.ok.inj hp).symm
  subst hp
  exact ⟨{ h with
    dyn := by simpa using h.dyn
    quad := by simpa using h.quad
    named := by simpa using h.named }, rfl⟩

theorem jacobians_homog {w : Expr} {p p' : Prob} {T : Tab} (h : Consistent U Γ w p T) (hp : analyticalJacobians p = .ok p') :
    Consistent U Γ w p' T ∧ p'.ind = p.ind := by
  obtain ⟨a, b, rfl⟩ := jacobians_ok hp
  exact ⟨{ h with }, rfl⟩

end Beluga.Homog
