import Verif.Symbolic.Props3

/-! # The differential control law: lemmas -/

namespace Beluga.Sym

open Expr

/-- The dynamic variables and their rates. -/
def Prob.dyn (p : Prob) : List Dyn := p.states ++ p.costates

/-- The optimality conditions. -/
def gOf (H : Expr) (controls : List Name) : List Expr := controls.map fun u => H.diff u

/-- The system solved for the control rates. -/
def ctlMatrix (H : Expr) (controls : List Name) : List (List Expr) :=
  (gOf H controls).map fun r => controls.map fun c => r.diff c

def ctlRhs (H : Expr) (controls : List Name) (dyn : List Dyn) : List Expr :=
  (gOf H controls).map fun r => negDot ((dyn.map Dyn.name).map fun c => r.diff c) (dyn.map Dyn.eom)

/-- The control states. -/
def ctlStates (controls : List Name) (udot : List Expr) : List Dyn := (controls.zip udot).map fun cu => ⟨cu.1, cu.2⟩

theorem jacobian_ok {rows : List Expr} {cols : List Name} {J : List (List Expr)} (h : jacobian rows cols = .ok J) :
    rows ≠ [] ∧ cols ≠ [] ∧ J = rows.map fun r => cols.map fun c => r.diff c := by
  rw [jacobian] at h
  split at h
  · cases h
  · next hn =>
    rw [not_or] at hn
    cases h
    exact ⟨hn.1, hn.2, rfl⟩

theorem differential_traditional {S : Sympy} {p p' : Prob} (h : differentialControl S .traditional p = .ok p') :
    p.dualized = true ∧ p.controls ≠ [] ∧ ∃ H udot, p.hamiltonian = some H ∧
      S.lu (ctlMatrix H p.controls) (ctlRhs H p.controls p.dyn) = .ok udot ∧ p' = { p with
        terminal := p.terminal ++ (gOf H p.controls).map fun gk => ({ expr := gk } : Con)
        controls := p.controls.drop (ctlStates p.controls udot).length
        states := p.states ++ ctlStates p.controls udot
        chain := p.chain ++ [.differential ((List.range (ctlStates p.controls udot).length).map (p.states.length + ·))] } := by
  rw [differentialControl] at h
  split at h
  · cases h
  · next hd =>
    cases hH : p.hamiltonian with
    | none => rw [hH] at h; cases h
    | some H =>
      rw [hH] at h
      simp only [bind, Except.bind] at h
      split at h
      · cases h
      · next dgdx hx =>
        obtain ⟨h1, -, rfl⟩ := jacobian_ok hx
        split at h
        · cases h
        · next dgdu hu =>
          obtain ⟨-, h2, rfl⟩ := jacobian_ok hu
          split at h
          · cases h
          · next udot hl =>
            simp only [Except.ok.injEq] at h
            refine ⟨by simpa using hd, h2, H, udot, rfl, ?_, h.symm⟩
            rw [← hl]
            simp only [ctlMatrix, ctlRhs, gOf, Prob.dyn, List.map_map, Function.comp_def]

theorem differential_diffyg {S : Sympy} {p p' : Prob} (h : differentialControl S .diffyg p = .ok p') :
    p.dualized = true ∧ p.controls ≠ [] ∧ ∃ H udot chi, p.hamiltonian = some H ∧
      S.lu (ctlMatrix H p.controls) (ctlRhs H p.controls p.dyn) = .ok udot ∧
      (p.states ++ ctlStates p.controls udot).length =
        (p.costates ++ (ctlStates p.controls udot).map fun d => (⟨lamName d.name, 0⟩ : Dyn)).length ∧
      vectorField S H (controlForm (p.states ++ ctlStates p.controls udot).length p.controls.length
        (p.states.length - 1) udot) (((p.states ++ ctlStates p.controls udot) ++
          (p.costates ++ (ctlStates p.controls udot).map fun d => (⟨lamName d.name, 0⟩ : Dyn))).map Dyn.name) = .ok chi ∧
      p' = { p with
        terminal := p.terminal ++ (gOf H p.controls).map fun gk => ({ expr := gk } : Con)
        initial := p.initial ++ (ctlStates p.controls udot).map fun d => ({ expr := sym (lamName d.name) } : Con)
        controls := []
        states := (setEoms ((p.states ++ ctlStates p.controls udot) ++
          (p.costates ++ (ctlStates p.controls udot).map fun d => (⟨lamName d.name, 0⟩ : Dyn))) chi).take
            (p.states ++ ctlStates p.controls udot).length
        costates := (setEoms ((p.states ++ ctlStates p.controls udot) ++
          (p.costates ++ (ctlStates p.controls udot).map fun d => (⟨lamName d.name, 0⟩ : Dyn))) chi).drop
            (p.states ++ ctlStates p.controls udot).length
        omega := some (controlForm (p.states ++ ctlStates p.controls udot).length p.controls.length
          (p.states.length - 1) udot)
        chain := p.chain ++ [.differentialDiffyG
          ((List.range (ctlStates p.controls udot).length).map (p.states.length + ·))] } := by
  rw [differentialControl] at h
  split at h
  · cases h
  · next hd =>
    cases hH : p.hamiltonian with
    | none => rw [hH] at h; cases h
    | some H =>
      rw [hH] at h
      simp only [bind, Except.bind] at h
      split at h
      · cases h
      · next dgdx hx =>
        obtain ⟨h1, -, rfl⟩ := jacobian_ok hx
        split at h
        · cases h
        · next dgdu hu =>
          obtain ⟨-, h2, rfl⟩ := jacobian_ok hu
          split at h
          · cases h
          · next udot hl =>
            split at h
            · cases h
            · next hlen =>
              split at h
              · cases h
              · next chi hchi =>
                simp only [Except.ok.injEq] at h
                refine ⟨by simpa using hd, h2, H, udot, chi, rfl, ?_, not_not.1 hlen, hchi, ?_⟩
                · rw [← hl]
                  simp only [ctlMatrix, ctlRhs, gOf, Prob.dyn, List.map_map, Function.comp_def]
                · rw [← h]
                  simp only [ctlStates, gOf, List.map_map, Function.comp_def]

theorem list_sum_range {M : Type _} [AddCommMonoid M] {α : Type _} (d : α) (l : List α) (f : α → M) :
    (l.map f).sum = ∑ i ∈ Finset.range l.length, f (l.getD i d) := by
  induction l with
  | nil => simp
  | cons a l ih =>
    rw [List.map_cons, List.sum_cons, ih, List.length_cons, Finset.sum_range_succ']
    simp [add_comm]

theorem eval_negDot {K : Type _} [Field K] (I : Interp K) (ρ : Name → K) (dyn : List Dyn) (f : Name → Expr) :
    eval I ρ (negDot ((dyn.map Dyn.name).map f) (dyn.map Dyn.eom)) =
      -(dyn.map fun d => eval I ρ (f d.name) * eval I ρ d.eom).sum := by
  rw [negDot, eval_neg, eval_foldl_add, eval_zero, zero_add]
  congr 2
  induction dyn with
  | nil => rfl
  | cons d ds ih => simp only [List.map_cons, List.zip_cons_cons, ih]; rfl

/-- The control rates keep the optimality conditions: for every condition `g`, the sum of partial derivatives times
rates over states, costates and controls vanishes. -/
theorem udot_solves {S : Sympy} (hS : LuSound S) {H : Expr} {controls : List Name} {dyn : List Dyn} {udot : List Expr}
    (h : S.lu (ctlMatrix H controls) (ctlRhs H controls dyn) = .ok udot) :
    udot.length = controls.length ∧ ∀ {K : Type} [Field K] (I : Interp K) (ρ : Name → K), (∀ e ∈ udot, Defined I ρ e) →
      ∀ g ∈ gOf H controls, (dyn.map fun d => eval I ρ (g.diff d.name) * eval I ρ d.eom).sum +
        ((ctlStates controls udot).map fun d => eval I ρ (g.diff d.name) * eval I ρ d.eom).sum = 0 := by
  have hml : (ctlMatrix H controls).length = controls.length := by simp [ctlMatrix, gOf]
  have hlen := hS.length _ _ _ h
  rw [hml] at hlen
  refine ⟨hlen, fun I ρ hd g hg => ?_⟩
  obtain ⟨k, hk, rfl⟩ := List.mem_iff_getElem.1 hg
  have hk' : k < controls.length := by simpa [gOf] using hk
  have hrow := hS.solves _ _ _ h I ρ k (by omega) (by
    intro j hj _
    apply hd
    rw [hml] at hj
    rw [List.getD, List.getElem?_eq_getElem (by omega)]
    exact List.getElem_mem _)
  rw [hml] at hrow
  have hb : (ctlRhs H controls dyn).getD k 0 =
      negDot ((dyn.map Dyn.name).map fun c => ((gOf H controls)[k]).diff c) (dyn.map Dyn.eom) := by
    rw [ctlRhs, List.getD, List.getElem?_map, List.getElem?_eq_getElem hk]
    rfl
  rw [hb, eval_negDot] at hrow
  have hc : ((ctlStates controls udot).map fun d => eval I ρ (((gOf H controls)[k]).diff d.name) * eval I ρ d.eom).sum =
      ∑ j ∈ Finset.range controls.length, eval I ρ (entry (ctlMatrix H controls) k j) * eval I ρ (udot.getD j 0) := by
    rw [list_sum_range (⟨"", 0⟩ : Dyn)]
    have hcl : (ctlStates controls udot).length = controls.length := by simp [ctlStates, hlen]
    rw [hcl]
    apply Finset.sum_congr rfl
    intro j hj
    rw [Finset.mem_range] at hj
    have e1 : (ctlStates controls udot).getD j ⟨"", 0⟩ = ⟨controls[j], udot[j]⟩ := by
      rw [List.getD, List.getElem?_eq_getElem (by omega)]
      simp [ctlStates]
    have e2 : entry (ctlMatrix H controls) k j = ((gOf H controls)[k]).diff controls[j] := by
      rw [entry, ctlMatrix, List.getD, List.getD, List.getElem?_map, List.getElem?_eq_getElem hk]
      simp [List.getElem?_eq_getElem hj]
    have e3 : udot.getD j 0 = udot[j] := by
      rw [List.getD, List.getElem?_eq_getElem (by omega)]; rfl
    rw [e1, e2, e3]
  rw [hc, hrow]
  ring

end Beluga.Sym
