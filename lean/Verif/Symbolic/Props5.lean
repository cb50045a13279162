import Verif.Symbolic.Symplectic

/-! # The symplectic method and the traditional method have the same solutions (C30) -/

namespace Beluga.Sym

open Expr

/-! ### Lemmas -/

/-- The variable has `c` times the rate `v` at `t`. -/
def DerivAt (c : ℝ) (ρ : ℝ → Name → ℝ) (t : ℝ) (s : Name) (v : ℝ) : Prop :=
  HasDerivAt (fun τ => ρ τ s) (c * v) t

theorem follows_iff {U : Name → Nat → ℝ → ℝ} {dyn : List Dyn} {names : List Name} {eoms : List Expr} {c a b : ℝ}
    {ρ : ℝ → Name → ℝ} (h1 : dyn.map Dyn.name = names) (h2 : dyn.map Dyn.eom = eoms) :
    Follows U dyn c a b ρ ↔ ∀ t ∈ Set.Icc a b, ∀ i < names.length,
      DerivAt c ρ t (names.getD i "") (eval (real U) (ρ t) (eoms.getD i 0)) := by
  subst h1 h2
  have hg : ∀ i, (hi : i < dyn.length) → (dyn.map Dyn.name).getD i "" = dyn[i].name ∧
      (dyn.map Dyn.eom).getD i 0 = dyn[i].eom := by
    intro i hi
    simp [List.getD, List.getElem?_eq_getElem hi]
  constructor
  · intro h t ht i hi
    have hi' : i < dyn.length := by simpa using hi
    rw [(hg i hi').1, (hg i hi').2]
    exact h t ht _ (List.getElem_mem hi')
  · intro h t ht d hd
    obtain ⟨i, hi, rfl⟩ := List.mem_iff_getElem.1 hd
    have := h t ht i (by simpa using hi)
    rwa [(hg i hi).1, (hg i hi).2] at this

theorem setEoms_eoms : ∀ (ds : List Dyn) (es : List Expr), es.length = ds.length → (setEoms ds es).map Dyn.eom = es
  | [], [], _ => rfl
  | d :: ds, e :: es, h => by
    simp only [setEoms, List.map_cons, List.cons.injEq, true_and]
    exact setEoms_eoms ds es (by simpa using h)
  | [], e :: es, h => by simp at h
  | d :: ds, [], h => by simp at h

theorem getD_append_left' {α : Type _} (l l' : List α) (d : α) (i : Nat) (h : i < l.length) :
    (l ++ l').getD i d = l.getD i d := by
  rw [List.getD, List.getD, List.getElem?_append_left h]

theorem getD_append_right' {α : Type _} (l l' : List α) (d : α) (n i : Nat) (h : l.length = n) :
    (l ++ l').getD (n + i) d = l'.getD i d := by
  rw [List.getD, List.getD, List.getElem?_append_right (by omega)]
  congr 2; omega

theorem forall_lt_add {P : Nat → Prop} (n m : Nat) : (∀ i < n + m, P i) ↔ (∀ i < n, P i) ∧ ∀ j < m, P (n + j) := by
  constructor
  · intro h
    exact ⟨fun i hi => h i (by omega), fun j hj => h (n + j) (by omega)⟩
  · rintro ⟨h1, h2⟩ i hi
    by_cases hn : i < n
    · exact h1 i hn
    · have := h2 (i - n) (by omega)
      rwa [show n + (i - n) = i by omega] at this

/-- `∂²H/∂u∂λ` is the derivative of the rate. -/
theorem diff_diff_H {K : Type _} [Field K] (I : Interp K) (σ : Name → K) (cost : Expr) (u l : Name) (hcost : l ∉ cost.free) :
    ∀ states : List Dyn, (∀ s ∈ states, u ≠ lamName s.name) → (∀ s ∈ states, l ∉ s.eom.free) →
    eval I σ (((hamiltonianOf cost states).diff u).diff l) =
      (states.map fun s => if lamName s.name = l then eval I σ (s.eom.diff u) else 0).sum := by
  intro states h1 h2
  rw [hamiltonianOf]
  have hd : ∀ (x : Name) (g : Dyn → Expr) (ss : List Dyn) (c : Expr),
      (ss.foldl (fun acc s => acc + g s) c).diff x = ss.foldl (fun acc s => acc + (g s).diff x) (c.diff x) := by
    intro x g ss
    induction ss with
    | nil => intro c; rfl
    | cons s ss ih => intro c; rw [List.foldl_cons, ih]; rfl
  rw [hd, hd, eval_foldl_add, eval_diff_of_not_mem I σ (fun h => hcost (mem_free_diff h)), zero_add]
  congr 1
  apply List.map_congr_left
  intro s hs
  have e1 : (sym (lamName s.name) * s.eom).diff u = num 0 * s.eom + sym (lamName s.name) * s.eom.diff u := by
    change add (mul (diff u (sym (lamName s.name))) s.eom) (mul (sym (lamName s.name)) (diff u s.eom)) = _
    rw [diff, if_neg (fun h => h1 s hs h.symm)]; rfl
  rw [e1]
  change eval I σ (add (add (mul (num 0) s.eom) (mul (num 0) (diff l s.eom)))
    (add (mul (diff l (sym (lamName s.name))) (diff u s.eom)) (mul (sym (lamName s.name)) (diff l (diff u s.eom))))) = _
  simp only [eval, eval_diff_of_not_mem I σ (fun h => h2 s hs (mem_free_diff h))]
  by_cases hl : lamName s.name = l
  · simp [diff, hl, eval]
  · simp [diff, hl, eval]

theorem zip_eoms {controls : List Name} {udot : List Expr} (h : udot.length = controls.length) :
    (ctlStates controls udot).map Dyn.eom = udot := by
  rw [ctlStates, List.map_map]
  have : (Dyn.eom ∘ fun cu : Name × Expr => (⟨cu.1, cu.2⟩ : Dyn)) = Prod.snd := rfl
  rw [this, List.map_snd_zip (by omega)]

/-- The rates of the symplectic problem, at a point. -/
theorem diffyg_values {S : Sympy} (hS : LuSound S) {p pd p' : Prob} (hs : p.sympified = true) (hc : p.costates = [])
    (hcp : p.coparameters = []) (hp : p.parameters = []) (h1 : dualize S .diffyg p = .ok pd)
    (h2 : differentialControl S .diffyg pd = .ok p') (hlast : ∃ init t, p.states = init ++ [⟨t, 1⟩]) (hfr : LamFresh p)
    (hlu : ∀ u ∈ p.controls, lamName u ∉ (hamiltonianOf p.costPath p.states).free) :
    let X := p.states.map Dyn.name
    let n := p.states.length
    let m := p.controls.length
    let H := hamiltonianOf p.costPath p.states
    ∃ chi udot, chi.length = 2 * (n + m) ∧ udot.length = m ∧
      (p'.states ++ p'.costates).map Dyn.name = (X ++ p.controls) ++ (X.map lamName ++ p.controls.map lamName) ∧
      (p'.states ++ p'.costates).map Dyn.eom = chi ∧ p'.initial = pd.initial ++ p.controls.map (fun u => { expr := sym (lamName u) }) ∧
      p'.terminal = pd.terminal ++ p.controls.map (fun u => { expr := H.diff u }) ∧
      (∃ om, p'.omega = some om ∧ ∀ j < m, ∃ row ∈ om, udot.getD j 0 ∈ row) ∧
      S.lu (ctlMatrix H p.controls) (ctlRhs H p.controls (p.states ++ pd.costates)) = .ok udot ∧
      ∀ (U : Name → Nat → ℝ → ℝ) (σ : Name → ℝ), (∀ e ∈ chi, Defined (real U) σ e) →
        (∀ i < n, eval (real U) σ (chi.getD i 0) = eval (real U) σ ((p.states.map Dyn.eom).getD i 0)) ∧
        (∀ j < m, eval (real U) σ (chi.getD (n + j) 0) = eval (real U) σ (udot.getD j 0)) ∧
        (∀ i < n, i ≠ n - 1 → eval (real U) σ (chi.getD (i + (n + m)) 0) = -eval (real U) σ (H.diff (X.getD i ""))) ∧
        eval (real U) σ (chi.getD (n - 1 + (n + m)) 0) = -eval (real U) σ (H.diff (X.getD (n - 1) "")) -
          ∑ j ∈ Finset.range m, eval (real U) σ (udot.getD j 0) * eval (real U) σ (H.diff (p.controls.getD j "")) ∧
        ∀ j < m, eval (real U) σ (chi.getD (n + j + (n + m)) 0) = -eval (real U) σ (H.diff (p.controls.getD j "")) := by
  intro X n m H
  obtain ⟨qd, hqd, hpq, hco⟩ := C30_dualize_partial hS hs hc hcp hp h1
  have hqd' := dualize_traditional S p hs hc hcp
  rw [hqd] at hqd'
  simp only [Except.ok.injEq] at hqd'
  have est : pd.states = p.states := by
    have := congrArg Prob.states hpq
    rw [hqd'] at this; exact this
  have ect : pd.controls = p.controls := by
    have := congrArg Prob.controls hpq
    rw [hqd'] at this; exact this
  have eH : pd.hamiltonian = some H := by
    have := congrArg Prob.hamiltonian hpq
    rw [hqd'] at this; exact this
  have hqc : qd.costates = X.map fun x => ⟨lamName x, -(H.diff x)⟩ := by rw [hqd']
  have hcn : pd.costates.map Dyn.name = X.map lamName := by
    rw [(diffyg_rates hS hs hc hcp h1).1, List.map_map]
    rfl
  have hcl : pd.costates.length = n := by
    have := congrArg List.length hcn
    simpa [X] using this
  obtain ⟨-, -, H', udot, chi, eH', hlu', -, hvf, rfl⟩ := differential_diffyg h2
  rw [eH] at eH'
  cases eH'
  rw [ect] at hlu'
  have hul := (udot_solves hS hlu').1
  have hnm := ctlStates_names hul
  have hsl : (ctlStates p.controls udot).length = m := by
    have := congrArg List.length hnm
    simpa [m] using this
  have hlam : (ctlStates p.controls udot).map (fun d => lamName d.name) = p.controls.map lamName := by
    rw [← hnm, List.map_map, hnm]; rfl
  rw [est, ect] at hvf
  have hN : (p.states ++ ctlStates p.controls udot).length = n + m := by simp [hsl, n]
  have hbasis : ((p.states ++ ctlStates p.controls udot) ++ (pd.costates ++ (ctlStates p.controls udot).map fun d =>
      (⟨lamName d.name, 0⟩ : Dyn))).map Dyn.name = (X ++ p.controls) ++ (X.map lamName ++ p.controls.map lamName) := by
    simp only [List.map_append, hcn, hnm, List.map_map, Function.comp_def]
    rw [hlam]
  rw [hN, hbasis] at hvf
  have hXl : X.length = n := by simp [X, n]
  have hn0 : 0 < n := by
    obtain ⟨init, t, ht⟩ := hlast
    simp [n, ht]
  obtain ⟨hchil, hval⟩ := vectorField_control hS hvf (by simp [hXl, m]; omega) hn0
  have htd : ∀ l : List Dyn, ∀ k, l.take k ++ l.drop k = l := fun l k => List.take_append_drop k l
  refine ⟨chi, udot, hchil, hul, ?_, ?_, ?_, ?_, ⟨_, rfl, ?_⟩, ?_, ?_⟩
  · simp only [est, ect]
    rw [htd, setEoms_names, hbasis]
  · simp only [est, ect]
    rw [htd, setEoms_eoms]
    rw [hchil, ← List.length_map (f := Dyn.name), hbasis]
    simp [hXl, m]; omega
  · simp only [ect]
    congr 1
    have := congrArg (List.map fun u => ({ expr := sym u } : Con)) hlam
    simpa only [List.map_map, Function.comp_def] using this
  · simp only [ect, gOf, List.map_map, Function.comp_def, H]
  · intro j hj
    rw [est, ect, hN]
    have hrow : (controlForm (n + m) p.controls.length (p.states.length - 1) udot).getD (n + j + (n + m)) [] ∈
        controlForm (n + m) p.controls.length (p.states.length - 1) udot := by
      rw [List.getD, List.getElem?_eq_getElem (by simp [controlForm]; omega)]
      exact List.getElem_mem _
    refine ⟨_, hrow, ?_⟩
    have he := control_entry (n + m) m (n - 1) udot (n + j + (n + m)) (n - 1) (by omega) (by omega)
    rw [if_neg (by omega), if_pos ⟨rfl, by omega⟩, show n + j + (n + m) - (2 * (n + m) - m) = j by omega] at he
    rw [← he, entry]
    have hlen : (((controlForm (n + m) m (n - 1) udot).getD (n + j + (n + m)) [])).length = 2 * (n + m) := by
      rw [controlForm, getD_map_range _ _ _ _ (by omega)]
      simp
    have key : ∀ (l : List Expr) (k : Nat), k < l.length → l.getD k 0 ∈ l := by
      intro l k hk
      rw [List.getD, List.getElem?_eq_getElem hk]
      exact List.getElem_mem _
    exact key _ _ (by rw [hlen]; omega)
  · rw [← hlu', Prob.dyn, est]
  · intro U σ hd
    obtain ⟨v1, v2, v3, v4⟩ := hval (real U) σ hd
    have b1 : ∀ i < n, ((X ++ p.controls) ++ (X.map lamName ++ p.controls.map lamName)).getD i "" = X.getD i "" := by
      intro i hi
      rw [getD_append_left' _ _ _ _ (by simp [hXl]; omega), getD_append_left' _ _ _ _ (by omega)]
    have b2 : ∀ j < m, ((X ++ p.controls) ++ (X.map lamName ++ p.controls.map lamName)).getD (n + j) "" =
        p.controls.getD j "" := by
      intro j hj
      rw [getD_append_left' _ _ _ _ (by simp [hXl, m] at hj ⊢; omega), getD_append_right' _ _ _ _ _ hXl]
    have b3 : ∀ i, ((X ++ p.controls) ++ (X.map lamName ++ p.controls.map lamName)).getD (i + (n + m)) "" =
        (X.map lamName ++ p.controls.map lamName).getD i "" := by
      intro i
      rw [Nat.add_comm, getD_append_right' _ _ _ _ _ (by simp [hXl, m])]
    have b4 : ∀ i < n, (X.map lamName ++ p.controls.map lamName).getD i "" = lamName (X.getD i "") := by
      intro i hi
      rw [getD_append_left' _ _ _ _ (by simp [hXl]; omega)]
      have : i < X.length := by omega
      simp [List.getD, List.getElem?_eq_getElem this]
    have b5 : ∀ j < m, (X.map lamName ++ p.controls.map lamName).getD (n + j) "" = lamName (p.controls.getD j "") := by
      intro j hj
      rw [getD_append_right' _ _ _ _ _ (by simp [hXl])]
      have : j < p.controls.length := hj
      simp [List.getD, List.getElem?_eq_getElem this]
    have f1 : ∀ i < n, eval (real U) σ (chi.getD i 0) = eval (real U) σ ((p.states.map Dyn.eom).getD i 0) := by
      intro i hi
      have hi' : i < p.states.length := hi
      rw [v1 i hi, b3, b4 i hi]
      have e1 : X.getD i "" = (p.states[i]).name := by
        simp [X, List.getD, List.getElem?_eq_getElem hi']
      have e2 : (p.states.map Dyn.eom).getD i 0 = (p.states[i]).eom := by
        simp [List.getD, List.getElem?_eq_getElem hi']
      rw [e1, e2]
      exact diff_lam hfr (List.getElem_mem hi') (real U) σ
    have flast : eval (real U) σ (chi.getD (n - 1) 0) = 1 := by
      rw [f1 _ (by omega)]
      obtain ⟨init, t, ht⟩ := hlast
      have : n - 1 = (init.map Dyn.eom).length + 0 := by simp [n, ht]
      rw [this, ht, List.map_append, getD_append_right' _ _ _ _ _ rfl]
      simp
    refine ⟨f1, ?_, ?_, ?_, ?_⟩
    · intro j hj
      rw [v2 j hj, flast, mul_one, b3, b5 j hj]
      have hj' : j < p.controls.length := hj
      have : lamName (p.controls.getD j "") ∉ H.free := by
        apply hlu
        rw [List.getD, List.getElem?_eq_getElem hj']
        exact List.getElem_mem hj'
      rw [eval_diff_of_not_mem _ _ this, zero_add]
    · intro i hi hik
      rw [v3 i (by omega) hik, b1 i hi]
    · rw [v4, b1 _ (by omega)]
      congr 1
      apply Finset.sum_congr rfl
      intro j hj
      rw [Finset.mem_range] at hj
      rw [b2 j hj]
    · intro j hj
      rw [v3 (n + j) (by omega) (by omega), b2 j hj]

theorem lt_of_range {n m : Nat} {P : Nat → Prop} (h : ∀ i < 2 * (n + m), P i) :
    (∀ i < n, P i) ∧ (∀ j < m, P (n + j)) ∧ (∀ i < n, P (i + (n + m))) ∧ ∀ j < m, P (n + j + (n + m)) :=
  ⟨fun i hi => h i (by omega), fun j hj => h _ (by omega), fun i hi => h _ (by omega), fun j hj => h _ (by omega)⟩

theorem range_of_lt {n m : Nat} {P : Nat → Prop} (h1 : ∀ i < n, P i) (h2 : ∀ j < m, P (n + j))
    (h3 : ∀ i < n, P (i + (n + m))) (h4 : ∀ j < m, P (n + j + (n + m))) : ∀ i < 2 * (n + m), P i := by
  intro i hi
  by_cases a1 : i < n
  · exact h1 i a1
  by_cases a2 : i < n + m
  · rw [show i = n + (i - n) by omega]
    exact h2 _ (by omega)
  by_cases a3 : i < n + (n + m)
  · rw [show i = (i - (n + m)) + (n + m) by omega]
    exact h3 _ (by omega)
  · rw [show i = n + (i - (n + (n + m))) + (n + m) by omega]
    exact h4 _ (by omega)

theorem sum_dyn {M : Type _} [AddCommMonoid M] (dyn : List Dyn) {names : List Name} {eoms : List Expr}
    (h1 : dyn.map Dyn.name = names) (h2 : dyn.map Dyn.eom = eoms) (F : Name → Expr → M) :
    (dyn.map fun d => F d.name d.eom).sum = ∑ i ∈ Finset.range names.length, F (names.getD i "") (eoms.getD i 0) := by
  subst h1 h2
  rw [list_sum_range (⟨"", 0⟩ : Dyn), List.length_map]
  apply Finset.sum_congr rfl
  intro i hi
  rw [Finset.mem_range] at hi
  simp [List.getD, List.getElem?_eq_getElem hi]

theorem g_last {K : Type _} [Field K] (I : Interp K) (σ : Name → K) {p : Prob} (hfr : LamFresh p) {init : List Dyn} {t u : Name}
    (hlast : p.states = init ++ [⟨t, 1⟩]) (hu : ∀ s ∈ p.states, u ≠ lamName s.name) :
    eval I σ (((hamiltonianOf p.costPath p.states).diff u).diff (lamName t)) = 0 := by
  have ht : (⟨t, 1⟩ : Dyn) ∈ p.states := by rw [hlast]; simp
  rw [diff_diff_H I σ p.costPath u (lamName t) (hfr.cost _ ht) p.states hu (fun s hs => hfr.rates _ ht s hs)]
  apply List.sum_eq_zero
  intro x hx
  obtain ⟨s, hs, rfl⟩ := List.mem_map.1 hx
  by_cases h : lamName s.name = lamName t
  · rw [if_pos h]
    have hst := lam_inj h
    have : s = ⟨t, 1⟩ := by
      rw [hlast] at hs
      simp only [List.mem_append, List.mem_singleton] at hs
      rcases hs with hs | hs
      · exfalso
        have hnd := hfr.nodup
        rw [hlast, List.map_append, List.nodup_append] at hnd
        exact hnd.2.2 s.name (List.mem_map_of_mem hs) t (by simp) hst
      · exact hs
    rw [this]
    change eval I σ (num 0) = 0
    simp [eval]
  · rw [if_neg h]

theorem follows_append {U : Name → Nat → ℝ → ℝ} {l l' : List Dyn} {c a b : ℝ} {ρ : ℝ → Name → ℝ} :
    Follows U (l ++ l') c a b ρ ↔ Follows U l c a b ρ ∧ Follows U l' c a b ρ := by
  simp only [Follows, List.mem_append]
  constructor
  · intro h
    exact ⟨fun t ht d hd => h t ht d (Or.inl hd), fun t ht d hd => h t ht d (Or.inr hd)⟩
  · rintro ⟨h1, h2⟩ t ht d (hd | hd)
    · exact h1 t ht d hd
    · exact h2 t ht d hd

/-! ### C30: solutions -/

/-- What is asked of a curve: smooth and defined data, constants that are constant, and a regular `∂²H/∂u²`. -/
structure RegularCurve (U : Name → Nat → ℝ → ℝ) (H : Expr) (vars controls : List Name) (rates : List Expr) (a b : ℝ)
    (ρ : ℝ → Name → ℝ) : Prop where
  const : ∀ s ∈ H.free, s ∉ vars → s ∉ controls → Moves a b ρ 0 s
  smooth : ∀ t ∈ Set.Icc a b, ∀ u ∈ controls, Smooth U (ρ t) (H.diff u)
  defined : ∀ t ∈ Set.Icc a b, ∀ e ∈ rates, Defined (real U) (ρ t) e
  regular : ∀ t ∈ Set.Icc a b, ∀ y : Nat → ℝ, (∀ i < controls.length, ∑ j ∈ Finset.range controls.length,
    eval (real U) (ρ t) ((H.diff (controls.getD i "")).diff (controls.getD j "")) * y j = 0) →
      ∀ j < controls.length, y j = 0

/-- For problems without free parameters whose last state is the independent variable (that is what `MomentumShift`
makes), the boundary value problem of the symplectic method and that of the traditional method have the same solutions;
the costates of the controls, which only the symplectic one has, are zero. -/
theorem C30_solutions_partial {S : Sympy} (hS : LuSound S) {p pd p' qd q' : Prob} (hs : p.sympified = true)
    (hc : p.costates = []) (hcp : p.coparameters = []) (hp : p.parameters = [])
    (hlast : ∃ init t, p.states = init ++ [⟨t, 1⟩]) (hfr : LamFresh p)
    (h1 : dualize S .diffyg p = .ok pd) (h2 : differentialControl S .diffyg pd = .ok p')
    (h3 : dualize S .traditional p = .ok qd) (h4 : differentialControl S .traditional qd = .ok q')
    {H : Expr} (hH : qd.hamiltonian = some H) (hlu : ∀ u ∈ p.controls, "_lam_" ++ u ∉ H.free)
    (hn : ((qd.states ++ qd.costates).map Dyn.name ++ p.controls).Nodup)
    {om : List (List Expr)} (hom : p'.omega = some om)
    {U : Name → Nat → ℝ → ℝ} {c a b : ℝ} {ρ : ℝ → Name → ℝ}
    (hr : RegularCurve U H ((qd.states ++ qd.costates).map Dyn.name) p.controls
      ((pd.costates ++ p'.states ++ p'.costates ++ q'.states).map Dyn.eom ++ om.flatten) a b ρ) :
    (Follows U (p'.states ++ p'.costates) c a b ρ ∧ Holds U (ρ a) p'.initial ∧ Holds U (ρ b) p'.terminal) ↔
    (Follows U (q'.states ++ q'.costates) c a b ρ ∧ Holds U (ρ a) q'.initial ∧ Holds U (ρ b) q'.terminal ∧
      ∀ u ∈ p.controls, Moves a b ρ 0 ("_lam_" ++ u) ∧ ρ a ("_lam_" ++ u) = 0) := by
  obtain ⟨qd2, hqd2, hpq, hco⟩ := C30_dualize_partial hS hs hc hcp hp h1
  rw [h3] at hqd2
  cases hqd2
  have hqd := dualize_traditional S p hs hc hcp
  rw [h3] at hqd
  simp only [Except.ok.injEq] at hqd
  have hHe : H = hamiltonianOf p.costPath p.states := by
    rw [hqd] at hH
    simpa using hH.symm
  subst hHe
  obtain ⟨chi, udp, hchil, hupl, hnames, heoms, hini, hter, ⟨om', hom', hmem⟩, hludp, hval⟩ :=
    diffyg_values hS hs hc hcp hp h1 h2 hlast hfr hlu
  rw [hom] at hom'
  cases hom'
  obtain ⟨-, -, H2, udq, hH2, hludq, hq'⟩ := differential_traditional h4
  rw [hH] at hH2
  cases hH2
  have qst : qd.states = p.states := by rw [hqd]
  have qct : qd.controls = p.controls := by rw [hqd]
  have qco : qd.costates = (p.states.map Dyn.name).map fun x =>
      ⟨lamName x, -((hamiltonianOf p.costPath p.states).diff x)⟩ := by rw [hqd]
  generalize hHg : hamiltonianOf p.costPath p.states = H at *
  generalize hX : p.states.map Dyn.name = X at *
  have hXl : X.length = p.states.length := by rw [← hX]; simp
  rw [qct] at hludq
  obtain ⟨huql, hsolq⟩ := udot_solves hS hludq
  obtain ⟨-, hsolp⟩ := udot_solves hS hludp
  have hnmq := ctlStates_names huql
  have hnmp := ctlStates_names hupl
  obtain ⟨init, tn, hlast⟩ := hlast
  -- names
  have hnl : ((X ++ p.controls) ++ (X.map lamName ++ p.controls.map lamName)).length =
      2 * (p.states.length + p.controls.length) := by simp [hXl]; omega
  have b1 : ∀ i < p.states.length, ((X ++ p.controls) ++ (X.map lamName ++ p.controls.map lamName)).getD i "" =
      X.getD i "" := by
    intro i hi
    rw [getD_append_left' _ _ _ _ (by simp [hXl]; omega), getD_append_left' _ _ _ _ (by omega)]
  have b2 : ∀ j < p.controls.length, ((X ++ p.controls) ++ (X.map lamName ++ p.controls.map lamName)).getD
      (p.states.length + j) "" = p.controls.getD j "" := by
    intro j hj
    rw [getD_append_left' _ _ _ _ (by simp [hXl]; omega), getD_append_right' _ _ _ _ _ hXl]
  have b3 : ∀ i, ((X ++ p.controls) ++ (X.map lamName ++ p.controls.map lamName)).getD
      (i + (p.states.length + p.controls.length)) "" = (X.map lamName ++ p.controls.map lamName).getD i "" := by
    intro i
    rw [Nat.add_comm i, getD_append_right' _ _ _ _ _ (by simp [hXl])]
  have b4 : ∀ i < p.states.length, (X.map lamName ++ p.controls.map lamName).getD i "" = lamName (X.getD i "") := by
    intro i hi
    rw [getD_append_left' _ _ _ _ (by simp [hXl]; omega)]
    have : i < X.length := by omega
    simp [List.getD, List.getElem?_eq_getElem this]
  have b5 : ∀ j < p.controls.length, (X.map lamName ++ p.controls.map lamName).getD (p.states.length + j) "" =
      lamName (p.controls.getD j "") := by
    intro j hj
    rw [getD_append_right' _ _ _ _ _ (by simp [hXl])]
    simp [List.getD, List.getElem?_eq_getElem hj]
  have bl : ∀ i < p.states.length, (X.map lamName).getD i "" = lamName (X.getD i "") := by
    intro i hi
    have : i < X.length := by omega
    simp [List.getD, List.getElem?_eq_getElem this]
  -- the two sets of equations
  have hFP : Follows U (p'.states ++ p'.costates) c a b ρ ↔ ∀ t ∈ Set.Icc a b,
      (∀ i < p.states.length, DerivAt c ρ t (X.getD i "") (eval (real U) (ρ t) (chi.getD i 0))) ∧
      (∀ j < p.controls.length, DerivAt c ρ t (p.controls.getD j "")
        (eval (real U) (ρ t) (chi.getD (p.states.length + j) 0))) ∧
      (∀ i < p.states.length, DerivAt c ρ t (lamName (X.getD i ""))
        (eval (real U) (ρ t) (chi.getD (i + (p.states.length + p.controls.length)) 0))) ∧
      ∀ j < p.controls.length, DerivAt c ρ t (lamName (p.controls.getD j ""))
        (eval (real U) (ρ t) (chi.getD (p.states.length + j + (p.states.length + p.controls.length)) 0)) := by
    rw [follows_iff hnames heoms, hnl]
    refine forall₂_congr fun t ht => ?_
    constructor
    · intro h
      obtain ⟨k1, k2, k3, k4⟩ := lt_of_range h
      refine ⟨fun i hi => ?_, fun j hj => ?_, fun i hi => ?_, fun j hj => ?_⟩
      · have := k1 i hi; rwa [b1 i hi] at this
      · have := k2 j hj; rwa [b2 j hj] at this
      · have := k3 i hi; rwa [b3, b4 i hi] at this
      · have := k4 j hj; rwa [b3, b5 j hj] at this
    · rintro ⟨k1, k2, k3, k4⟩
      refine range_of_lt ?_ ?_ ?_ ?_
      · intro i hi; rw [b1 i hi]; exact k1 i hi
      · intro i hi; rw [b2 i hi]; exact k2 i hi
      · intro i hi; rw [b3, b4 i hi]; exact k3 i hi
      · intro i hi; rw [b3, b5 i hi]; exact k4 i hi
  have hFQ : Follows U (q'.states ++ q'.costates) c a b ρ ↔ ∀ t ∈ Set.Icc a b,
      (∀ i < p.states.length, DerivAt c ρ t (X.getD i "") (eval (real U) (ρ t) ((p.states.map Dyn.eom).getD i 0))) ∧
      (∀ j < p.controls.length, DerivAt c ρ t (p.controls.getD j "") (eval (real U) (ρ t) (udq.getD j 0))) ∧
      (∀ i < p.states.length, DerivAt c ρ t (lamName (X.getD i "")) (-eval (real U) (ρ t) (H.diff (X.getD i "")))) := by
    have e1 : q'.states = p.states ++ ctlStates p.controls udq := by rw [hq', qst, qct]
    have e2 : q'.costates = X.map fun x => ⟨lamName x, -(H.diff x)⟩ := by rw [hq']; exact qco
    rw [e1, e2, follows_append, follows_append, follows_iff hX rfl, follows_iff hnmq (zip_eoms huql),
      follows_iff (names := X.map lamName) (eoms := X.map fun x => -(H.diff x)) (by simp [Function.comp_def])
        (by simp [Function.comp_def]), hXl, List.length_map, hXl]
    have e3 : ∀ i < p.states.length, (X.map fun x => -(H.diff x)).getD i 0 = -(H.diff (X.getD i "")) := by
      intro i hi
      have : i < X.length := by omega
      simp [List.getD, List.getElem?_eq_getElem this]
    constructor
    · rintro ⟨⟨k1, k2⟩, k3⟩ t ht
      refine ⟨k1 t ht, k2 t ht, fun i hi => ?_⟩
      have := k3 t ht i hi
      rwa [bl i hi, e3 i hi, eval_neg] at this
    · intro h
      refine ⟨⟨fun t ht => (h t ht).1, fun t ht => (h t ht).2.1⟩, fun t ht i hi => ?_⟩
      rw [bl i hi, e3 i hi, eval_neg]
      exact (h t ht).2.2 i hi
  -- definedness
  have hdchi : ∀ t ∈ Set.Icc a b, ∀ e ∈ chi, Defined (real U) (ρ t) e := by
    intro t ht e he
    apply hr.defined t ht
    rw [← heoms] at he
    simp only [List.map_append, List.mem_append] at he ⊢
    tauto
  have hdq : ∀ t ∈ Set.Icc a b, ∀ d ∈ q'.states, Defined (real U) (ρ t) d.eom := by
    intro t ht d hd
    apply hr.defined t ht
    have : d.eom ∈ q'.states.map Dyn.eom := List.mem_map_of_mem hd
    simp only [List.map_append, List.mem_append]
    tauto
  have hdudq : ∀ t ∈ Set.Icc a b, ∀ e ∈ udq, Defined (real U) (ρ t) e := by
    intro t ht e he
    rw [← zip_eoms huql] at he
    obtain ⟨d, hd, rfl⟩ := List.mem_map.1 he
    apply hdq t ht
    rw [hq', qct]
    simp [hd]
  have hdudp : ∀ t ∈ Set.Icc a b, ∀ e ∈ udp, Defined (real U) (ρ t) e := by
    intro t ht e he
    obtain ⟨j, hj, rfl⟩ := List.mem_iff_getElem.1 he
    obtain ⟨row, hrow, hin⟩ := hmem j (by omega)
    apply hr.defined t ht
    have e1 : udp.getD j 0 = udp[j] := by simp [List.getD, List.getElem?_eq_getElem hj]
    rw [e1] at hin
    simp only [List.mem_append, List.mem_flatten]
    exact Or.inr ⟨row, hrow, hin⟩
  have hpdc : ∀ t ∈ Set.Icc a b, ∀ i < p.states.length, eval (real U) (ρ t) ((pd.costates.map Dyn.eom).getD i 0) =
      -eval (real U) (ρ t) (H.diff (X.getD i "")) := by
    intro t ht i hi
    have hcl := hco.length_eq
    rw [qco, List.length_map, hXl] at hcl
    have hic : i < pd.costates.length := by omega
    have hi2 : i < X.length := by omega
    have := (List.forall₂_iff_get.1 hco).2 i hic (by rw [qco]; simpa using hi2)
    have h5 := this.2 (real U) (ρ t) (by
      apply hr.defined t ht
      have : (pd.costates.get ⟨i, hic⟩).eom ∈ pd.costates.map Dyn.eom := List.mem_map_of_mem (List.get_mem _ _)
      simp only [List.map_append, List.mem_append]
      tauto)
    simp only [List.getD, List.getElem?_map, List.getElem?_eq_getElem hic, List.getElem?_eq_getElem hi2, Option.map_some,
      Option.getD_some]
    simp only [List.get_eq_getElem] at h5
    rw [h5]
    simp [qco]
  have hpdn : pd.costates.map Dyn.name = X.map lamName := by
    rw [(diffyg_rates hS hs hc hcp h1).1, ← hX, List.map_map]; rfl
  -- the linear systems
  have hP : ∀ t ∈ Set.Icc a b, ∀ u ∈ p.controls,
      ∑ i ∈ Finset.range p.states.length, eval (real U) (ρ t) ((H.diff u).diff (X.getD i "")) *
          eval (real U) (ρ t) ((p.states.map Dyn.eom).getD i 0) +
        ∑ i ∈ Finset.range p.states.length, eval (real U) (ρ t) ((H.diff u).diff (lamName (X.getD i ""))) *
          -eval (real U) (ρ t) (H.diff (X.getD i "")) +
        ∑ j ∈ Finset.range p.controls.length, eval (real U) (ρ t) ((H.diff u).diff (p.controls.getD j "")) *
          eval (real U) (ρ t) (udp.getD j 0) = 0 := by
    intro t ht u hu
    have := hsolp (real U) (ρ t) (hdudp t ht) _ (List.mem_map_of_mem (f := fun u => H.diff u) hu)
    rw [List.map_append, List.sum_append,
      sum_dyn _ hX rfl (fun s e => eval (real U) (ρ t) ((H.diff u).diff s) * eval (real U) (ρ t) e),
      sum_dyn _ hpdn rfl (fun s e => eval (real U) (ρ t) ((H.diff u).diff s) * eval (real U) (ρ t) e),
      sum_dyn _ hnmp (zip_eoms hupl) (fun s e => eval (real U) (ρ t) ((H.diff u).diff s) * eval (real U) (ρ t) e),
      List.length_map, hXl] at this
    rw [← this]
    congr 2
    apply Finset.sum_congr rfl
    intro i hi
    rw [Finset.mem_range] at hi
    rw [bl i hi, hpdc t ht i hi]
  have hQ : ∀ t ∈ Set.Icc a b, ∀ u ∈ p.controls,
      ∑ i ∈ Finset.range p.states.length, eval (real U) (ρ t) ((H.diff u).diff (X.getD i "")) *
          eval (real U) (ρ t) ((p.states.map Dyn.eom).getD i 0) +
        ∑ i ∈ Finset.range p.states.length, eval (real U) (ρ t) ((H.diff u).diff (lamName (X.getD i ""))) *
          -eval (real U) (ρ t) (H.diff (X.getD i "")) +
        ∑ j ∈ Finset.range p.controls.length, eval (real U) (ρ t) ((H.diff u).diff (p.controls.getD j "")) *
          eval (real U) (ρ t) (udq.getD j 0) = 0 := by
    intro t ht u hu
    have := hsolq (real U) (ρ t) (hdudq t ht) _ (List.mem_map_of_mem (f := fun u => H.diff u) hu)
    rw [Prob.dyn, qst, qco, List.map_append, List.sum_append,
      sum_dyn _ hX rfl (fun s e => eval (real U) (ρ t) ((H.diff u).diff s) * eval (real U) (ρ t) e),
      sum_dyn _ (names := X.map lamName) (eoms := X.map fun x => -(H.diff x)) (by simp [Function.comp_def])
        (by simp [Function.comp_def])
        (fun s e => eval (real U) (ρ t) ((H.diff u).diff s) * eval (real U) (ρ t) e),
      sum_dyn _ hnmq (zip_eoms huql) (fun s e => eval (real U) (ρ t) ((H.diff u).diff s) * eval (real U) (ρ t) e),
      List.length_map, hXl] at this
    rw [← this]
    congr 2
    apply Finset.sum_congr rfl
    intro i hi
    rw [Finset.mem_range] at hi
    have hi2 : i < X.length := by omega
    rw [bl i hi, show (X.map fun x => -(H.diff x)).getD i 0 = -(H.diff (X.getD i "")) by
      simp [List.getD, List.getElem?_eq_getElem hi2], eval_neg]
  have hupq : ∀ t ∈ Set.Icc a b, ∀ j < p.controls.length,
      eval (real U) (ρ t) (udp.getD j 0) = eval (real U) (ρ t) (udq.getD j 0) := by
    intro t ht j hj
    have := hr.regular t ht (fun j => eval (real U) (ρ t) (udp.getD j 0) - eval (real U) (ρ t) (udq.getD j 0)) (by
      intro i hi
      have hu : p.controls.getD i "" ∈ p.controls := by
        rw [List.getD, List.getElem?_eq_getElem hi]; exact List.getElem_mem hi
      have k1 := hP t ht _ hu
      have k2 := hQ t ht _ hu
      simp only [mul_sub, Finset.sum_sub_distrib]
      linarith) j hj
    linarith
  have hvars : (qd.states ++ qd.costates).map Dyn.name = X ++ X.map lamName := by
    rw [List.map_append, qst, qco, hX]; simp [Function.comp_def]
  rw [hvars] at hn hr
  have hidx : ∀ (l : List Name) (s : Name), s ∈ l → ∃ i < l.length, l.getD i "" = s := by
    intro l s hs
    obtain ⟨i, hi, rfl⟩ := List.mem_iff_getElem.1 hs
    exact ⟨i, hi, by simp [List.getD, List.getElem?_eq_getElem hi]⟩
  have hXn : p.states.length - 1 < p.states.length ∧ X.getD (p.states.length - 1) "" = tn := by
    have : p.states.length - 1 = (init.map Dyn.name).length + 0 := by simp [hlast]
    refine ⟨by simp [hlast], ?_⟩
    rw [this, ← hX, hlast, List.map_append, getD_append_right' _ _ _ _ _ rfl]
    simp
  have hglast : ∀ t, ∀ u ∈ p.controls, eval (real U) (ρ t) ((H.diff u).diff (lamName (X.getD (p.states.length - 1) ""))) = 0 := by
    intro t u hu
    rw [hXn.2, ← hHg]
    apply g_last _ _ hfr hlast
    rintro s hs rfl
    rw [List.nodup_append] at hn
    exact hn.2.2 (lamName s.name) (by
      simp only [List.mem_append]
      right
      exact List.mem_map_of_mem (by rw [← hX]; exact List.mem_map_of_mem hs)) (lamName s.name) hu rfl
  have hpi : p'.initial = q'.initial ++ p.controls.map (fun u => { expr := sym (lamName u) }) := by
    rw [hini, hq']
    have := congrArg Prob.initial hpq
    exact congrArg (· ++ _) this
  have hpt : p'.terminal = q'.terminal := by
    rw [hter, hq']
    have := congrArg Prob.terminal hpq
    simp only at this
    rw [this, qct, gOf, List.map_map]; rfl
  constructor
  · rintro ⟨hf, hi, ht⟩
    rw [hFP] at hf
    have hg : ∀ u ∈ p.controls, ∀ t ∈ Set.Icc a b, eval (real U) (ρ t) (H.diff u) = 0 := by
      intro u hu
      have h0 : ∀ t ∈ Set.Icc a b, HasDerivAt (fun τ => eval (real U) (ρ τ) (H.diff u)) 0 t := by
        intro t ht
        obtain ⟨f1, f2, f3, -⟩ := hf t ht
        obtain ⟨v1, v2, v3, -, -⟩ := hval U (ρ t) (hdchi t ht)
        have hder : ∀ s ∈ X ++ X.map lamName ++ p.controls, ∃ v, HasDerivAt (fun τ => ρ τ s) v t := by
          intro s hs
          simp only [List.mem_append] at hs
          rcases hs with (hs | hs) | hs
          · obtain ⟨i, hi, rfl⟩ := hidx _ _ hs
            exact ⟨_, f1 i (by omega)⟩
          · obtain ⟨x, hx, rfl⟩ := List.mem_map.1 hs
            obtain ⟨i, hi, rfl⟩ := hidx _ _ hx
            exact ⟨_, f3 i (by omega)⟩
          · obtain ⟨i, hi, rfl⟩ := hidx _ _ hs
            exact ⟨_, f2 i hi⟩
        have hc0 : ∀ s ∈ (H.diff u).free, s ∉ X ++ X.map lamName ++ p.controls → HasDerivAt (fun τ => ρ τ s) 0 t := by
          intro s hs hns
          rw [List.mem_append, not_or] at hns
          exact hr.const s (mem_free_diff hs) hns.1 hns.2 t ht
        have hd := hasDerivAt_eval (U := U) (ρ := ρ) (v := fun s => _root_.deriv (fun τ => ρ τ s) t) (t := t) hn
          (e := H.diff u)
          (by
            intro s hs
            by_cases hm : s ∈ X ++ X.map lamName ++ p.controls
            · obtain ⟨v, hv⟩ := hder s hm
              rw [hv.deriv]; exact hv
            · have := hc0 s hs hm
              rw [this.deriv]; exact this)
          (by
            intro s hs
            by_cases hm : s ∈ X ++ X.map lamName ++ p.controls
            · exact Or.inl hm
            · exact Or.inr (hc0 s hs hm).deriv)
          (hr.smooth t ht u hu)
        refine hd.congr_deriv ?_
        rw [List.map_append, List.map_append, List.sum_append, List.sum_append, List.map_map,
          list_sum_range "" X, list_sum_range "" X, list_sum_range "" p.controls, hXl]
        have k := hP t ht u hu
        have s1 : ∑ i ∈ Finset.range p.states.length, eval (real U) (ρ t) ((H.diff u).diff (X.getD i "")) *
            _root_.deriv (fun τ => ρ τ (X.getD i "")) t = c * ∑ i ∈ Finset.range p.states.length,
              eval (real U) (ρ t) ((H.diff u).diff (X.getD i "")) *
                eval (real U) (ρ t) ((p.states.map Dyn.eom).getD i 0) := by
          rw [Finset.mul_sum]
          apply Finset.sum_congr rfl
          intro i hi
          rw [Finset.mem_range] at hi
          have hfi : HasDerivAt (fun τ => ρ τ (X.getD i "")) _ t := f1 i hi
          rw [hfi.deriv, v1 i hi]
          ring
        have s2 : ∑ i ∈ Finset.range p.states.length, ((fun s => eval (real U) (ρ t) ((H.diff u).diff s) *
            _root_.deriv (fun τ => ρ τ s) t) ∘ lamName) (X.getD i "") = c * ∑ i ∈ Finset.range p.states.length,
              eval (real U) (ρ t) ((H.diff u).diff (lamName (X.getD i ""))) *
                -eval (real U) (ρ t) (H.diff (X.getD i "")) := by
          rw [Finset.mul_sum]
          apply Finset.sum_congr rfl
          intro i hi
          rw [Finset.mem_range] at hi
          have hfi : HasDerivAt (fun τ => ρ τ (lamName (X.getD i ""))) _ t := f3 i hi
          simp only [Function.comp_apply]
          rw [hfi.deriv]
          by_cases hin : i = p.states.length - 1
          · rw [hin, hglast t u hu]; ring
          · rw [v3 i hi hin]; ring
        have s3 : ∑ j ∈ Finset.range p.controls.length, eval (real U) (ρ t) ((H.diff u).diff (p.controls.getD j "")) *
            _root_.deriv (fun τ => ρ τ (p.controls.getD j "")) t = c * ∑ j ∈ Finset.range p.controls.length,
              eval (real U) (ρ t) ((H.diff u).diff (p.controls.getD j "")) *
                eval (real U) (ρ t) (udp.getD j 0) := by
          rw [Finset.mul_sum]
          apply Finset.sum_congr rfl
          intro i hi
          rw [Finset.mem_range] at hi
          have hfi : HasDerivAt (fun τ => ρ τ (p.controls.getD i "")) _ t := f2 i hi
          rw [hfi.deriv, v2 i hi]
          ring
        rw [s1, s2, s3]
        linear_combination c * k
      intro t htt
      rw [eq_end_of_deriv_zero h0 t htt]
      refine ht { expr := H.diff u } ?_
      rw [hter, List.mem_append]
      right
      exact List.mem_map.2 ⟨u, hu, rfl⟩
    refine ⟨?_, ?_, ?_, ?_⟩
    · rw [hFQ]
      intro t ht
      obtain ⟨f1, f2, f3, -⟩ := hf t ht
      obtain ⟨v1, v2, v3, v4, -⟩ := hval U (ρ t) (hdchi t ht)
      refine ⟨fun i hi => ?_, fun j hj => ?_, fun i hi => ?_⟩
      · rw [← v1 i hi]; exact f1 i hi
      · rw [← hupq t ht j hj, ← v2 j hj]; exact f2 j hj
      · have := f3 i hi
        by_cases hin : i = p.states.length - 1
        · rw [hin] at this ⊢
          rw [v4, Finset.sum_eq_zero, sub_zero] at this
          · exact this
          · intro j hj
            rw [Finset.mem_range] at hj
            rw [hg _ (by rw [List.getD, List.getElem?_eq_getElem hj]; exact List.getElem_mem hj) t ht, mul_zero]
        · rwa [v3 i hi hin] at this
    · intro k hk
      exact hi k (by rw [hpi]; exact List.mem_append_left _ hk)
    · rwa [hpt] at ht
    · intro u hu
      constructor
      · intro t ht
        obtain ⟨j, hj, rfl⟩ := hidx _ _ hu
        have := (hf t ht).2.2.2 j hj
        obtain ⟨-, -, -, -, v5⟩ := hval U (ρ t) (hdchi t ht)
        rw [DerivAt, v5 j hj, hg _ hu t ht, neg_zero, mul_zero] at this
        exact this
      · exact hi { expr := sym (lamName u) } (by
          rw [hpi, List.mem_append]
          right
          exact List.mem_map.2 ⟨u, hu, rfl⟩)
  · rintro ⟨hf, hi, ht, hlam⟩
    have hg : ∀ u ∈ p.controls, ∀ t ∈ Set.Icc a b, eval (real U) (ρ t) (H.diff u) = 0 := by
      have := stationary_values hS h4 hH (by rw [hvars, qct]; exact hn) hf (by
        intro s hs hns
        rw [hvars, qct, List.mem_append, not_or] at hns
        exact hr.const s hs hns.1 hns.2) (by rw [qct]; exact hr.smooth) hdq ht
      rwa [qct] at this
    rw [hFQ] at hf
    refine ⟨?_, ?_, ?_⟩
    · rw [hFP]
      intro t ht
      obtain ⟨f1, f2, f3⟩ := hf t ht
      obtain ⟨v1, v2, v3, v4, v5⟩ := hval U (ρ t) (hdchi t ht)
      refine ⟨fun i hi => ?_, fun j hj => ?_, fun i hi => ?_, fun j hj => ?_⟩
      · rw [v1 i hi]; exact f1 i hi
      · rw [v2 j hj, hupq t ht j hj]; exact f2 j hj
      · by_cases hin : i = p.states.length - 1
        · have := f3 i hi
          rw [hin] at this ⊢
          rw [v4, Finset.sum_eq_zero, sub_zero]
          · exact this
          · intro j hj
            rw [Finset.mem_range] at hj
            rw [hg _ (by rw [List.getD, List.getElem?_eq_getElem hj]; exact List.getElem_mem hj) t ht, mul_zero]
        · rw [v3 i hi hin]; exact f3 i hi
      · have hu : p.controls.getD j "" ∈ p.controls := by
          rw [List.getD, List.getElem?_eq_getElem hj]; exact List.getElem_mem hj
        rw [DerivAt, v5 j hj, hg _ hu t ht, neg_zero, mul_zero]
        exact (hlam _ hu).1 t ht
    · rw [hpi]
      intro k hk
      rw [List.mem_append] at hk
      rcases hk with hk | hk
      · exact hi k hk
      · obtain ⟨u, hu, rfl⟩ := List.mem_map.1 hk
        exact (hlam u hu).2
    · rwa [hpt]

/-- Follow the clock: `t' = 1`, minimise `∫ (u - t)²/2`. -/
def exF : Prob where
  ind := "_t"
  states := [⟨"t", 1⟩]
  controls := ["u"]
  costPath := num (1 / 2) * pow (sym "u" - sym "t") 2
  sympified := true

def ratesAt (u t : ℚ) (p : Prob) : List (Name × ℚ) :=
  (p.states ++ p.costates).map fun d => (d.name,
    eval (⟨3, fun _ x => x⟩ : Interp ℚ) (fun s => if s = "u" then u else if s = "t" then t else 11) d.eom)

/-- Where `∂H/∂u = u - t = 0` the equations agree. -/
example : (withDifferential .traditional exF).map (ratesAt 5 5) = .ok [("t", 1), ("u", 1), ("_lam_t", 0)] ∧
    (withDifferential .diffyg exF).map (ratesAt 5 5) = .ok [("t", 1), ("u", 1), ("_lam_t", 0), ("_lam_u", 0)] := by
  decide +kernel

/-- Elsewhere they do not. -/
example : (withDifferential .traditional exF).map (ratesAt 7 5) = .ok [("t", 1), ("u", 1), ("_lam_t", 2)] ∧
    (withDifferential .diffyg exF).map (ratesAt 7 5) = .ok [("t", 1), ("u", 1), ("_lam_t", 0), ("_lam_u", -2)] := by
  decide +kernel

end Beluga.Sym
