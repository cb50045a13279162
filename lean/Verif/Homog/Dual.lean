import Verif.Homog.Steps

/-! # Dimensional consistency: `Dualize` -/

namespace Beluga.Homog

open Beluga.Sym Beluga.Sym.Expr Beluga.Num

variable {U : Name → Nat → ℝ → ℝ} {Γ : Name → Expr}

/-! ### Hamiltonian vector fields -/

theorem vectorField_dim {S : Sympy} (hL : LuDim U Γ S) (hΓ : ∀ s, IsUnit U (Γ s)) {H ham τ : Expr} {M : List (List Expr)}
    {basis : List Name} {chi : List Expr} (hH : Dim U Γ H ham) (hτ : IsUnit U τ) (h : vectorField S H M basis = .ok chi)
    (hb : basis.length = M.length)
    (hM : ∀ i < M.length, ∀ j < M.length,
      Dim U Γ (entry M i j) (ham / Γ (basis.getD i "") / (Γ (basis.getD j "") / τ))) :
    ∀ (j : Nat) e, chi[j]? = some e → Dim U Γ e (Γ (basis.getD j "") / τ) := by
  intro j e he
  rw [vectorField] at h
  obtain ⟨x, hx, h⟩ := bind_ok h
  cases h
  rw [List.getElem?_map, Option.map_eq_some_iff] at he
  obtain ⟨e, he, rfl⟩ := he
  have hh := Dim.isUnit hΓ hH
  refine Dim.neg (hL M _ x (fun i => ham / Γ (basis.getD i "")) (fun j => Γ (basis.getD j "") / τ) hx
    (fun i => IsUnit.div hh (hΓ _)) (fun j => IsUnit.div (hΓ _) hτ) hM (fun i hi => ?_) j e he)
  have hi' : i < basis.length := hb ▸ hi
  have : (basis.map fun b => H.diff b).getD i 0 = H.diff (basis.getD i "") := by
    simp only [List.getD, List.getElem?_map, List.getElem?_eq_getElem hi', Option.map_some, Option.getD_some]
  rw [this]
  exact Dim.diff hΓ _ hH

/-- The units of the entries of the symplectic form, for `ns` and their costates. -/
theorem form_dim (hΓ : ∀ s, IsUnit U (Γ s)) {cost ham τ : Expr} {ns : List Name} {m k : Nat} {udot : List Expr}
    (hc : IsUnit U cost) (hτ : IsUnit U τ) (hham : SameUnit U ham (cost / τ)) (hlam : ∀ n ∈ ns, SameUnit U (Γ (lamName n)) (cost / Γ n))
    (hm : m ≤ ns.length) (hk : 0 < m → k < ns.length ∧ SameUnit U (Γ (ns.getD k "")) τ)
    (hu : ∀ q < m, Dim U Γ (udot.getD q 0) (Γ (ns.getD (ns.length - m + q) "") / τ)) :
    ∀ i < (controlForm ns.length m k udot).length, ∀ j < (controlForm ns.length m k udot).length,
      Dim U Γ (entry (controlForm ns.length m k udot) i j)
        (ham / Γ ((ns ++ ns.map lamName).getD i "") / (Γ ((ns ++ ns.map lamName).getD j "") / τ)) := by
  set N := ns.length with hN
  have hlen : (controlForm N m k udot).length = 2 * N := by simp [controlForm]
  intro i hi j hj
  rw [hlen] at hi hj
  rw [controlForm, entry_map_range _ _ _ _ hi hj]
  have lo : ∀ i < N, (ns ++ ns.map lamName).getD i "" = ns.getD i "" := by
    intro i hi
    simp only [List.getD, List.getElem?_append_left (hN ▸ hi)]
  have up : ∀ i, N ≤ i → i < 2 * N → (ns ++ ns.map lamName).getD i "" = lamName (ns.getD (i - N) "") ∧
      ns.getD (i - N) "" ∈ ns := by
    intro i h1 h2
    have h3 : i - N < ns.length := by omega
    constructor
    · simp only [List.getD, List.getElem?_append_right (show ns.length ≤ i by omega), List.getElem?_map, ← hN,
        List.getElem?_eq_getElem h3, Option.map_some, Option.getD_some]
    · simp only [List.getD, List.getElem?_eq_getElem h3, Option.getD_some]
      exact List.getElem_mem h3
  have hham' : IsUnit U ham := fun φ hφ => by
    rw [hham φ hφ]; exact IsUnit.div hc hτ φ hφ
  split
  · next h =>
    obtain ⟨rfl, h⟩ := h
    have hm0 : 0 < m := by omega
    obtain ⟨hk1, hk2⟩ := hk hm0
    obtain ⟨h1, h2⟩ := up j (by omega) hj
    rw [lo i hk1, h1]
    have := hu (j - (2 * N - m)) (by omega)
    rw [show N - m + (j - (2 * N - m)) = j - N by omega] at this
    refine .conv (Dim.neg this) fun φ hφ => ?_
    simp only [eval_div, hham φ hφ, hk2 φ hφ, hlam _ h2 φ hφ]
    have a1 := (hc φ hφ).ne'
    have a2 := (hτ φ hφ).ne'
    have a3 := (hΓ (ns.getD (j - N) "") φ hφ).ne'
    field_simp
  · split
    · next h =>
      obtain ⟨rfl, h⟩ := h
      have hm0 : 0 < m := by omega
      obtain ⟨hk1, hk2⟩ := hk hm0
      obtain ⟨h1, h2⟩ := up i (by omega) hi
      rw [lo j hk1, h1]
      have := hu (i - (2 * N - m)) (by omega)
      rw [show N - m + (i - (2 * N - m)) = i - N by omega] at this
      refine .conv this fun φ hφ => ?_
      simp only [eval_div, hham φ hφ, hk2 φ hφ, hlam _ h2 φ hφ]
      have a1 := (hc φ hφ).ne'
      have a2 := (hτ φ hφ).ne'
      have a3 := (hΓ (ns.getD (i - N) "") φ hφ).ne'
      field_simp
    · split
      · next h =>
        obtain ⟨h1, h2⟩ := up i (by omega) hi
        rw [lo j (by omega), h1]
        rw [show i - N = j by omega] at h2 ⊢
        refine .conv (.num (-1)) fun φ hφ => ?_
        simp only [eval_div, hham φ hφ, hlam _ h2 φ hφ, eval_one']
        have a1 := (hc φ hφ).ne'
        have a2 := (hτ φ hφ).ne'
        have a3 := (hΓ (ns.getD j "") φ hφ).ne'
        field_simp
      · split
        · next h =>
          obtain ⟨h1, h2⟩ := up j (by omega) hj
          rw [lo i (by omega), h1]
          rw [show j - N = i by omega] at h2 ⊢
          refine .conv (.num 1) fun φ hφ => ?_
          simp only [eval_div, hham φ hφ, hlam _ h2 φ hφ, eval_one']
          have a1 := (hc φ hφ).ne'
          have a2 := (hτ φ hφ).ne'
          have a3 := (hΓ (ns.getD i "") φ hφ).ne'
          field_simp
        · exact .zero (IsUnit.div (IsUnit.div hham' (hΓ _)) (IsUnit.div (hΓ _) hτ))

theorem standardForm_eq (n : Nat) : standardForm n = controlForm n 0 0 [] := by
  rw [standardForm, controlForm]
  refine List.map_congr_left fun i hi => List.map_congr_left fun j hj => ?_
  rw [List.mem_range] at hi hj
  rw [if_neg (c := i = 0 ∧ 2 * n - 0 ≤ j) (by omega), if_neg (c := j = 0 ∧ 2 * n - 0 ≤ i) (by omega)]

theorem setEoms_dim {τ : Expr} : ∀ {ds : List Dyn} {es : List Expr}, (∀ d ∈ ds, Dim U Γ d.eom (Γ d.name / τ)) →
    (∀ (i : Nat) d e, ds[i]? = some d → es[i]? = some e → Dim U Γ e (Γ d.name / τ)) →
    ∀ d ∈ setEoms ds es, Dim U Γ d.eom (Γ d.name / τ)
  | [], es, h, _ => by cases es <;> simp [setEoms]
  | d :: ds, [], h, _ => by simpa [setEoms] using h
  | d :: ds, e :: es, h, h' => by
    intro x hx
    rw [setEoms, List.mem_cons] at hx
    rcases hx with rfl | hx
    · exact h' 0 d e rfl rfl
    · exact setEoms_dim (fun d hd => h d (by simp [hd])) (fun i d e h1 h2 => h' (i + 1) d e h1 h2) x hx

/-! ### Dualize -/

/-- What holds between `Dualize` and the control law. -/
structure Dualled (Γ : Name → Expr) (p : Prob) (T : Tab) : Prop where
  ham : T.ham = T.cost / Γ p.ind
  costates : p.costates.map Dyn.name = (p.states.map Dyn.name).map lamName
  lam : ∀ n ∈ p.states.map Dyn.name, Γ (lamName n) = T.cost / Γ n
  law : p.controlLaw = []

theorem augment_dim (hΓ : ∀ s, IsUnit U (Γ s)) {act cost : Expr} (hc : IsUnit U cost) : ∀ {cons : List Con} {us : List Expr}, List.Forall₂ (ConDim U Γ act) cons us →
    ∀ {nus : List Name} {c0 : Expr}, (∀ x ∈ nus.zip (us.map fun u => cost / u), Γ x.1 = x.2) → Dim U Γ c0 cost →
      Dim U Γ (augment c0 nus cons) cost
  | _, _, .nil, nus, c0, _, h => by simpa [augment] using h
  | c :: cs, u :: us, .cons hcu t, [], c0, _, h => by simpa [augment] using h
  | c :: cs, u :: us, .cons hcu t, n :: nus, c0, hn, h => by
    rw [augment, List.zip_cons_cons, List.foldl_cons]
    refine augment_dim hΓ hc t (fun x hx => hn x ?_) (.add h ?_)
    · rw [List.map_cons, List.zip_cons_cons]
      exact List.mem_cons_of_mem _ hx
    · have hnu : Γ n = cost / u := hn (n, cost / u) (by simp)
      refine .conv (.mul (.sym n) hcu.expr) fun φ hφ => ?_
      rw [hnu, eval_mul, eval_div, div_mul_cancel₀ _ (Dim.isUnit hΓ hcu.expr φ hφ).ne']

theorem ConDim.plain {act e u : Expr} (h : Dim U Γ e u) : ConDim U Γ act { expr := e } u :=
  ⟨h, (fun _ h => by cases h), (fun _ h => by cases h), (fun h => by simp [Con.twoSided] at h)⟩

theorem dualize_traditional_homog (hΓ : ∀ s, IsUnit U (Γ s)) {w : Expr} {S : Sympy} {p p' : Prob} {T : Tab}
    (hw : SameUnit U (Γ p.ind) w) (h : Consistent U Γ w p T) (hf : Fresh p) (ha : Agrees Γ (uDualize p T))
    (hp : dualize S .traditional p = .ok p') :
    Consistent U Γ w p' (uDualize p T) ∧ Dualled Γ p' (uDualize p T) ∧ p'.ind = p.ind ∧
      p'.states = p.states ∧ p'.parameters = p.parameters ∧ p'.quads = p.quads := by
  have hs : p.sympified = true := by
    by_contra hs
    rw [dualize, if_pos (by simpa using hs)] at hp
    cases hp
  have hT : Agrees Γ T := fun x hx => ha x (by simp [uDualize, hx])
  have hof : ∀ n ∈ p.ind :: (p.states.map Dyn.name ++ p.parameters), T.of n = Γ n := fun n hn =>
    Tab.of_eq hT (h.named n (by
      simp only [List.mem_cons, List.mem_append, List.map_append] at hn ⊢
      tauto))
  have hcost := Dim.isUnit hΓ h.costInitial
  have hlam : ∀ n ∈ p.states.map Dyn.name ++ p.parameters, Γ (lamName n) = T.cost / Γ n := by
    intro n hn
    rw [← hof n (List.mem_cons_of_mem _ hn)]
    exact ha (lamName n, T.cost / T.of n) (by
      simp only [uDualize]
      exact List.mem_append_right _ (List.mem_map.2 ⟨n, hn, rfl⟩))
  have h0 : Dim U Γ (augment p.costInitial (nuNames "_nu_0_" p.initial.length) p.initial) T.cost :=
    augment_dim hΓ hcost h.initial (fun x hx => ha x (by
      simp only [uDualize, List.append_assoc]
      exact List.mem_append_right _ (List.mem_append_left _ hx))) h.costInitial
  have h1 : Dim U Γ (augment p.costTerminal (nuNames "_nu_f_" p.terminal.length) p.terminal) T.cost :=
    augment_dim hΓ hcost h.terminal (fun x hx => ha x (by
      simp only [uDualize]
      exact List.mem_append_left _ (List.mem_append_right _ hx))) h.costTerminal
  have hH : Dim U Γ (hamiltonianOf p.costPath p.states) (T.cost / Γ p.ind) := by
    refine Dim.foldl_add (f := fun s : Dyn => sym (lamName s.name) * s.eom) p.states h.costPath fun d hd => ?_
    refine .conv (.mul (.sym _) (h.dyn d (List.mem_append_left _ hd))) fun φ hφ => ?_
    rw [hlam d.name (List.mem_append_left _ (List.mem_map_of_mem hd))]
    have a1 := (hΓ d.name φ hφ).ne'
    simp only [eval_mul, eval_div]
    field_simp
  have hrate : ∀ n ∈ p.states.map Dyn.name ++ p.parameters,
      Dim U Γ (-((hamiltonianOf p.costPath p.states).diff n)) (Γ (lamName n) / Γ p.ind) := by
    intro n hn
    refine .conv (Dim.neg (Dim.diff hΓ n hH)) fun φ hφ => ?_
    rw [hlam n hn]
    simp only [eval_div, div_div, mul_comm]
  rw [dualize_traditional S p hs hf.costates hf.coparameters] at hp
  have hp := Except.ok.inj hp
  subst hp
  refine ⟨{ dyn := ?_, quad := ?_, initial := ?_, path := h.path, terminal := ?_, costInitial := h0, costPath := h.costPath,
            costTerminal := h1, quantities := h.quantities, switches := h.switches, hamiltonian := ?_, law := ?_, named := ?_ },
    ⟨?_, ?_, ?_, hf.controlLaw⟩, rfl, rfl, rfl, rfl⟩
  · intro d hd
    simp only [List.mem_append, List.mem_map] at hd
    rcases hd with hd | ⟨n, hn, rfl⟩
    · exact h.dyn d (List.mem_append_left _ hd)
    · exact hrate n (List.mem_append_left _ (List.mem_map.2 hn))
  · intro d hd
    simp only [List.mem_append, List.mem_map] at hd
    rcases hd with hd | ⟨n, hn, rfl⟩
    · exact h.quad d (List.mem_append_left _ hd)
    · exact .conv (hrate n (List.mem_append_right _ hn)) (SameUnit.div (SameUnit.refl _) hw)
  · dsimp only [uDualize]
    refine List.rel_append h.initial ?_
    rw [List.map_map, List.forall₂_map_left_iff, List.forall₂_map_right_iff, List.forall₂_same]
    intro n hn
    refine ConDim.plain (.add ?_ ?_)
    · dsimp only [Function.comp]
      rw [hof n (List.mem_cons_of_mem _ hn), ← hlam n hn]
      exact .sym _
    · dsimp only [Function.comp]
      rw [hof n (List.mem_cons_of_mem _ hn)]
      exact Dim.diff hΓ n h0
  · dsimp only [uDualize]
    refine List.rel_append (List.rel_append h.terminal ?_) (.cons (ConDim.plain (.add ?_ ?_)) .nil)
    · rw [List.map_map, List.forall₂_map_left_iff, List.forall₂_map_right_iff, List.forall₂_same]
      intro n hn
      refine ConDim.plain (Dim.sub ?_ ?_)
      · dsimp only [Function.comp]
        rw [hof n (List.mem_cons_of_mem _ hn), ← hlam n hn]
        exact .sym _
      · dsimp only [Function.comp]
        rw [hof n (List.mem_cons_of_mem _ hn)]
        exact Dim.diff hΓ n h1
    · rw [hof p.ind (by simp)]
      exact Dim.diff hΓ _ h1
    · rw [hof p.ind (by simp)]
      exact hH
  · intro H hH'
    cases hH'
    dsimp only [uDualize]
    rw [hof p.ind (by simp)]
    exact hH
  · dsimp only
    rw [hf.controlLaw]
    simp
  · intro n hn
    simp only [uDualize, List.map_append, List.mem_append, List.mem_cons, List.map_map, Function.comp_def] at hn ⊢
    have := h.named n
    simp only [List.mem_cons, List.mem_append, List.map_append] at this
    rcases hn with hn | (((hn | hn) | hn) | hn)
    · exact .inl (.inl (.inl (this (by tauto))))
    · exact .inl (.inl (.inl (this (by tauto))))
    · exact .inr (.inl hn)
    · exact .inl (.inl (.inl (this (by tauto))))
    · exact .inl (.inl (.inl (this (by tauto))))
  · dsimp only [uDualize]
    rw [hof p.ind (by simp)]
  · simp [Function.comp_def]
  · intro n hn
    exact hlam n (List.mem_append_left _ hn)

theorem dualize_homog (hΓ : ∀ s, IsUnit U (Γ s)) {w : Expr} {S : Sympy} (hL : LuDim U Γ S) (hS : LuSound S) {m : Method} {p p' : Prob} {T : Tab}
    (hm : m ≠ .other) (hd : m = .diffyg → p.parameters = [])
    (hw : SameUnit U (Γ p.ind) w) (h : Consistent U Γ w p T) (hf : Fresh p) (ha : Agrees Γ (uDualize p T))
    (hp : dualize S m p = .ok p') :
    Consistent U Γ w p' (uDualize p T) ∧ Dualled Γ p' (uDualize p T) ∧ p'.ind = p.ind ∧
      p'.states = p.states ∧ p'.parameters = p.parameters ∧ p'.quads = p.quads := by
  cases m with
  | other => exact absurd rfl hm
  | traditional => exact dualize_traditional_homog hΓ hw h hf ha hp
  | diffyg =>
    have hpar := hd rfl
    have hs : p.sympified = true := by
      by_contra hs
      rw [dualize, if_pos (by simpa using hs)] at hp
      cases hp
    obtain ⟨chi, stars, hchi, q, hq, rfl⟩ := dualize_diffyg hs hf.costates hf.coparameters hp
    obtain ⟨h1, h2, h3, h4, h5, h6⟩ := dualize_traditional_homog hΓ hw h hf ha hq
    have hqH : q.hamiltonian = some (hamiltonianOf p.costPath p.states) := by
      rw [dualize_traditional S p hs hf.costates hf.coparameters] at hq
      have := Except.ok.inj hq
      subst this
      rfl
    have hqc : q.coparameters = p.parameters.map fun n => ⟨lamName n, -((hamiltonianOf p.costPath p.states).diff n)⟩ := by
      rw [dualize_traditional S p hs hf.costates hf.coparameters] at hq
      have := Except.ok.inj hq
      subst this
      rfl
    have hH := h1.hamiltonian _ hqH
    have hcost := Dim.isUnit hΓ h1.costInitial
    simp only [hpar, List.append_nil, List.length_nil, Nat.add_zero, List.map_nil] at hchi hqc ⊢
    set ns := p.states.map Dyn.name with hns
    have hN : p.states.length = ns.length := by simp [hns]
    rw [hN, standardForm_eq] at hchi
    have hlen : chi.length = 2 * ns.length := by
      rw [vectorField] at hchi
      obtain ⟨x, hx, hchi⟩ := bind_ok hchi
      cases hchi
      rw [List.length_map, hS.length _ _ _ hx, controlForm]
      simp
    have hchi' := vectorField_dim hL hΓ hH (hΓ p.ind) hchi (by simp [controlForm]; omega)
      (form_dim hΓ hcost (hΓ _) (by rw [h2.ham, h3]; exact SameUnit.refl _)
        (fun n hn => by rw [h2.lam n (by rw [h4]; exact hn)]; exact SameUnit.refl _) (Nat.zero_le _) (fun h => absurd h (lt_irrefl 0))
        (fun q hq => absurd hq (Nat.not_lt_zero _)))
    refine ⟨{ h1 with dyn := ?_, quad := ?_, named := ?_ }, ⟨h2.ham, ?_, h2.lam, h2.law⟩, h3, h4, h5.trans hpar, h6⟩
    · intro d hd
      simp only [List.mem_append] at hd
      dsimp only
      rcases hd with hd | hd
      · exact h1.dyn d (List.mem_append_left _ hd)
      · rw [h3]
        refine setEoms_dim (fun d hd => ?_) (fun i d e hd he => ?_) d hd
        · obtain ⟨n, -, rfl⟩ := List.mem_map.1 hd
          exact .zero (IsUnit.div (hΓ _) (hΓ _))
        · rw [List.getElem?_map, Option.map_eq_some_iff] at hd
          obtain ⟨n, hn, rfl⟩ := hd
          rw [List.getElem?_drop] at he
          have := hchi' _ e he
          have hi : i < ns.length := (List.getElem?_eq_some_iff.1 hn).1
          rw [show chi.length - p.states.length + i = ns.length + i by omega] at this
          have hg : (ns ++ ns.map lamName).getD (ns.length + i) "" = lamName n := by
            simp [List.getD, List.getElem?_append_right, hn]
          rw [hg] at this
          exact this
    · intro d hd
      simp only [List.append_nil] at hd
      exact h1.quad d (List.mem_append_left _ hd)
    · intro n hn
      refine h1.named n ?_
      have hq := h2.costates
      rw [h4, List.map_map] at hq
      simp only [List.map_append, setEoms_names, List.map_map, hq, hns, Function.comp_def] at hn ⊢
      exact hn
    · dsimp only
      rw [setEoms_names, h4, ← hns, List.map_map]
      rfl

end Beluga.Homog
