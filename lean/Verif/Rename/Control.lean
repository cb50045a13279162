import Verif.Rename.Dual

/-! # Renaming commutes with the control laws and with whole pipelines -/

namespace Beluga.Rename

open Beluga.Sym Beluga.Sym.Expr

variable {r : Name → Name}

theorem lookup_ren (hr : Function.Injective r) (u : Name) : ∀ l : List (Name × Expr),
    (l.map fun xe => (r xe.1, ren r xe.2)).lookup (r u) = (l.lookup u).map (ren r)
  | [] => rfl
  | (x, e) :: l => by
    simp only [List.map_cons, List.lookup_cons]
    by_cases h : u = x
    · subst h; simp
    · have h1 : (u == x) = false := by simpa using h
      have h2 : (r u == r x) = false := by simpa using hr.ne h
      simp only [h1, h2, lookup_ren hr u l]

theorem pickOption_ren (hr : Function.Injective r) (controls : List Name) (opt : List (Name × Expr)) :
    pickOption (controls.map r) (opt.map fun xe => (r xe.1, ren r xe.2)) = (pickOption controls opt).map (List.map (ren r)) := by
  refine mapM_ren (f := r) (g := ren r) _ _ controls fun u _ => ?_
  simp only [lookup_ren hr]
  cases opt.lookup u <;> rfl

theorem algebraic_ren {S S' : Sympy} (hr : Function.Injective r) (hS : Alike r S S') (p : Prob) :
    algebraicControl S' (renP r p) = (algebraicControl S p).map (renP r) := by
  by_cases h : p.dualized
  · rw [algebraicControl, algebraicControl, if_neg (by simp [renP, h]), if_neg (by simp [h])]
    have hH : (renP r p).hamiltonian = p.hamiltonian.map (ren r) := rfl
    rw [hH]
    cases p.hamiltonian with
    | none => rfl
    | some H =>
      have e1 : (p.controls.map r).map (fun u => (ren r H).diff u) = (p.controls.map fun u => H.diff u).map (ren r) := by
        simp [diff_ren hr]
      have e2 : (renP r p).controls = p.controls.map r := rfl
      have em := mapM_ren (f := List.map fun xe : Name × Expr => (r xe.1, ren r xe.2)) (g := List.map (ren r))
        (pickOption p.controls) (pickOption (p.controls.map r)) (S.solve (p.controls.map fun u => H.diff u) p.controls)
        fun o _ => pickOption_ren hr p.controls o
      simp only [Option.map_some, e2, e1, hS.solve]
      simp only [bind, Except.bind, Except.map] at em ⊢
      rw [em]
      cases (S.solve (p.controls.map fun u => H.diff u) p.controls).mapM (pickOption p.controls) with
      | error e => rfl
      | ok law =>
        refine congrArg Except.ok ?_
        simp [renP, renT]
  · rw [algebraicControl, algebraicControl, if_pos (by simp [renP, h]), if_pos (by simp [h])]
    rfl

theorem controlForm_ren (n m k : Nat) (udot : List Expr) :
    (controlForm n m k udot).map (List.map (ren r)) = controlForm n m k (udot.map (ren r)) := by
  have hd : ∀ j, (udot.map (ren r)).getD j 0 = ren r (udot.getD j 0) := by
    intro j
    simp only [List.getD_eq_getElem?_getD, List.getElem?_map]
    cases udot[j]? <;> rfl
  simp only [controlForm, List.map_map, hd]
  refine List.map_congr_left fun i _ => ?_
  simp only [Function.comp, List.map_map]
  refine List.map_congr_left fun j _ => ?_
  simp only [Function.comp]
  by_cases h1 : i = k ∧ 2 * n - m ≤ j
  · rw [if_pos h1, if_pos h1]; rfl
  · rw [if_neg h1, if_neg h1]
    by_cases h2 : j = k ∧ 2 * n - m ≤ i
    · rw [if_pos h2, if_pos h2]
    · rw [if_neg h2, if_neg h2]
      by_cases h3 : i = j + n
      · simp only [if_pos h3]; rfl
      · simp only [if_neg h3]
        by_cases h4 : j = i + n
        · simp only [if_pos h4]; rfl
        · simp only [if_neg h4]; rfl

theorem differential_ren {S S' : Sympy} (hr : Function.Injective r) (hS : Alike r S S') (m : Method) (p : Prob)
    (hl : ∀ u ∈ p.controls, r (lamName u) = lamName (r u)) :
    differentialControl S' m (renP r p) = (differentialControl S m p).map (renP r) := by
  by_cases h : p.dualized
  · rw [differentialControl, differentialControl, if_neg (by simp [renP, h]), if_neg (by simp [h])]
    have hH : (renP r p).hamiltonian = p.hamiltonian.map (ren r) := rfl
    rw [hH]
    cases p.hamiltonian with
    | none => rfl
    | some H =>
      simp only [Option.map_some]
      have e1 : (renP r p).controls.map (fun u => (ren r H).diff u) = (p.controls.map fun u => H.diff u).map (ren r) := by
        simp [renP, diff_ren hr]
      have e2 : ((renP r p).states ++ (renP r p).costates).map Dyn.name = ((p.states ++ p.costates).map Dyn.name).map r := by
        simp [renP, renD, Function.comp_def]
      have e3 : ((renP r p).states ++ (renP r p).costates).map Dyn.eom = ((p.states ++ p.costates).map Dyn.eom).map (ren r) := by
        simp [renP, renD, Function.comp_def]
      have e4 : (renP r p).controls = p.controls.map r := rfl
      simp only [e1, e2, e3]
      rw [e4, jacobian_ren hr, jacobian_ren hr]
      set g := p.controls.map fun u => H.diff u
      cases jacobian g ((p.states ++ p.costates).map Dyn.name) with
      | error e => rfl
      | ok dgdx =>
        cases jacobian g p.controls with
        | error e => rfl
        | ok dgdu =>
          have e5 : (dgdx.map (List.map (ren r))).map (fun row => negDot row (((p.states ++ p.costates).map Dyn.eom).map (ren r))) =
              (dgdx.map fun row => negDot row ((p.states ++ p.costates).map Dyn.eom)).map (ren r) := by
            generalize (p.states ++ p.costates).map Dyn.eom = eom
            rw [List.map_map, List.map_map]
            exact List.map_congr_left fun row _ => negDot_ren row eom
          have e6 := hS.lu dgdu (dgdx.map fun row => negDot row ((p.states ++ p.costates).map Dyn.eom))
          rw [← e5] at e6
          simp only [bind, Except.bind, Except.map] at e6 ⊢
          rw [e6]
          cases S.lu dgdu (dgdx.map fun row => negDot row ((p.states ++ p.costates).map Dyn.eom)) with
          | error e => rfl
          | ok udot =>
            have e7 : ((p.controls.map r).zip (udot.map (ren r))).map (fun cu => (⟨cu.1, cu.2⟩ : Dyn)) =
                ((p.controls.zip udot).map fun cu => (⟨cu.1, cu.2⟩ : Dyn)).map (renD r) := by
              rw [List.zip_map, List.map_map, List.map_map]
              exact List.map_congr_left fun cu _ => rfl
            have e8 : (renP r p).states.length = p.states.length := by simp [renP]
            simp only [e7, e8, List.length_map]
            set ctl := (p.controls.zip udot).map fun cu => (⟨cu.1, cu.2⟩ : Dyn) with hctl
            cases m with
            | other => rfl
            | traditional =>
              refine congrArg Except.ok ?_
              simp [renP, renT, renC, Function.comp_def, List.map_drop]
            | diffyg =>
              have hc : ∀ d ∈ ctl, r (lamName d.name) = lamName (r d.name) := by
                intro d hd
                rw [hctl] at hd
                obtain ⟨cu, hcu, rfl⟩ := List.mem_map.1 hd
                exact hl _ (List.of_mem_zip hcu).1
              clear_value ctl
              have e9 : (ctl.map (renD r)).map (fun d => (⟨lamName d.name, 0⟩ : Dyn)) =
                  (ctl.map fun d => (⟨lamName d.name, 0⟩ : Dyn)).map (renD r) := by
                rw [List.map_map, List.map_map]
                exact List.map_congr_left fun d hd => by simp [renD, hc d hd]
              have e10 : (renP r p).states ++ ctl.map (renD r) = (p.states ++ ctl).map (renD r) := by simp [renP]
              have e11 : (renP r p).costates ++ (ctl.map fun d => (⟨lamName d.name, 0⟩ : Dyn)).map (renD r) =
                  (p.costates ++ ctl.map fun d => (⟨lamName d.name, 0⟩ : Dyn)).map (renD r) := by simp [renP]
              simp only [e9, e10, e11, List.length_map]
              set lams := ctl.map fun d => (⟨lamName d.name, 0⟩ : Dyn)
              by_cases hlen : (p.states ++ ctl).length ≠ (p.costates ++ lams).length
              · rw [if_pos hlen, if_pos hlen]
              · rw [if_neg hlen, if_neg hlen]
                have e12 : ((p.states ++ ctl).map (renD r) ++ (p.costates ++ lams).map (renD r)).map Dyn.name =
                    (((p.states ++ ctl) ++ (p.costates ++ lams)).map Dyn.name).map r := by
                  simp [renD, Function.comp_def]
                have e13 := vectorField_ren hr hS H (controlForm (p.states ++ ctl).length p.controls.length (p.states.length - 1) udot)
                  (((p.states ++ ctl) ++ (p.costates ++ lams)).map Dyn.name)
                rw [controlForm_ren, ← e12] at e13
                rw [e13]
                cases vectorField S H (controlForm (p.states ++ ctl).length p.controls.length (p.states.length - 1) udot)
                  (((p.states ++ ctl) ++ (p.costates ++ lams)).map Dyn.name) with
                | error e => rfl
                | ok chi =>
                  refine congrArg Except.ok ?_
                  have e14 : setEoms ((p.states ++ ctl).map (renD r) ++ (p.costates ++ lams).map (renD r)) (chi.map (ren r)) =
                      (setEoms ((p.states ++ ctl) ++ (p.costates ++ lams)) chi).map (renD r) := by
                    rw [← List.map_append, setEoms_ren]
                  simp only [e14, ← List.map_take, ← List.map_drop]
                  have e15 : (lams.map (renD r)).map (fun l => ({ expr := sym l.name } : Con)) =
                      (lams.map fun l => ({ expr := sym l.name } : Con)).map (renC r) := by
                    simp [renC, renD, Function.comp_def]
                  have e16 : (g.map (ren r)).map (fun gk => ({ expr := gk } : Con)) = (g.map fun gk => ({ expr := gk } : Con)).map (renC r) := by
                    simp [renC, Function.comp_def]
                  rw [e15, e16]
                  simp only [renP, List.map_append, List.map_cons, List.map_nil, renT, Option.map_some, controlForm_ren]
  · rw [differentialControl, differentialControl, if_pos (by simp [renP, h]), if_pos (by simp [h])]
    rfl

theorem jacobians_ren (hr : Function.Injective r) (p : Prob) :
    analyticalJacobians (renP r p) = (analyticalJacobians p).map (renP r) := by
  have hD : ∀ l : List Dyn, (l.map (renD r)).map Dyn.name = (l.map Dyn.name).map r := by
    intro l; simp [renD, Function.comp_def]
  have hE : ∀ l : List Dyn, (l.map (renD r)).map Dyn.eom = (l.map Dyn.eom).map (ren r) := by
    intro l; simp [renD, Function.comp_def]
  have hC : ∀ l : List Con, (l.map (renC r)).map Con.expr = (l.map Con.expr).map (ren r) := by
    intro l; simp [renC, Function.comp_def]
  have f1 : (renP r p).states = p.states.map (renD r) := rfl
  have f2 : (renP r p).initial = p.initial.map (renC r) := rfl
  have f3 : (renP r p).terminal = p.terminal.map (renC r) := rfl
  have f4 : (renP r p).quads = p.quads.map (renD r) := rfl
  have f5 : (renP r p).parameters = p.parameters.map r := rfl
  have f6 : (renP r p).constraintParams = p.constraintParams.map r := rfl
  simp only [analyticalJacobians, f1, f2, f3, f4, f5, f6, hD, hE, hC, ← List.map_append, jacobian_ren hr, List.length_map]
  cases jacobian (p.states.map Dyn.eom) (p.states.map Dyn.name) with
  | error e => rfl
  | ok d1 =>
    cases jacobian (p.initial.map Con.expr) (p.states.map Dyn.name) with
    | error e => rfl
    | ok d2 =>
      cases jacobian (p.terminal.map Con.expr) (p.states.map Dyn.name) with
      | error e => rfl
      | ok d3 =>
        have key : ∀ d : List (List Expr), ((if p.quads.length > 0 then (do
              let _ ← (jacobian (p.initial.map Con.expr) (p.quads.map Dyn.name)).map (List.map (List.map (ren r)))
              let _ ← (jacobian (p.terminal.map Con.expr) (p.quads.map Dyn.name)).map (List.map (List.map (ren r)))
              Except.ok { renP r p with dfdy := d1.map (List.map (ren r)), dfdp := d.map (List.map (ren r)) })
            else Except.ok { renP r p with dfdy := d1.map (List.map (ren r)), dfdp := d.map (List.map (ren r)) }) : Py Prob) =
            ((if p.quads.length > 0 then (do
              let _ ← jacobian (p.initial.map Con.expr) (p.quads.map Dyn.name)
              let _ ← jacobian (p.terminal.map Con.expr) (p.quads.map Dyn.name)
              Except.ok { p with dfdy := d1, dfdp := d })
            else Except.ok { p with dfdy := d1, dfdp := d }) : Py Prob).map (renP r) := by
          intro d
          by_cases hq : p.quads.length > 0
          · rw [if_pos hq, if_pos hq]
            cases jacobian (p.initial.map Con.expr) (p.quads.map Dyn.name) with
            | error e => rfl
            | ok a =>
              cases jacobian (p.terminal.map Con.expr) (p.quads.map Dyn.name) with
              | error e => rfl
              | ok b => rfl
          · rw [if_neg hq, if_neg hq]
            rfl
        by_cases hp : (p.parameters ++ p.constraintParams).length > 0
        · simp only [bind, Except.bind, Except.map, pure, Except.pure] at key ⊢
          rw [if_pos hp, if_pos hp]
          cases jacobian (p.states.map Dyn.eom) p.parameters with
          | error e => rfl
          | ok d4 =>
            cases jacobian (p.initial.map Con.expr) (p.parameters ++ p.constraintParams) with
            | error e => rfl
            | ok d5 =>
              cases jacobian (p.terminal.map Con.expr) (p.parameters ++ p.constraintParams) with
              | error e => rfl
              | ok d6 => exact key d4
        · simp only [bind, Except.bind, Except.map, pure, Except.pure] at key ⊢
          rw [if_neg hp, if_neg hp]
          exact key []

end Beluga.Rename
