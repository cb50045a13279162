import Verif.Rename.Steps

/-! # Renaming commutes with `Dualize` and the control laws -/

namespace Beluga.Rename

open Beluga.Sym Beluga.Sym.Expr

variable {r : Name → Name}

theorem nuNames_ren {pre : String} (h : ∀ i : Nat, r (pre ++ toString i) = pre ++ toString i) (n : Nat) :
    (nuNames pre n).map r = nuNames pre n := by
  simp only [nuNames, List.map_map]
  exact List.map_congr_left fun i _ => h i

theorem augment_ren (cost : Expr) (nus : List Name) (cons : List Con) :
    augment (ren r cost) (nus.map r) (cons.map (renC r)) = ren r (augment cost nus cons) := by
  have : ∀ (l : List (Name × Con)) (acc : Expr),
      (l.map fun nc => (r nc.1, renC r nc.2)).foldl (fun acc nc => acc + sym nc.1 * nc.2.expr) (ren r acc) =
        ren r (l.foldl (fun acc nc => acc + sym nc.1 * nc.2.expr) acc) := by
    intro l
    induction l with
    | nil => intro acc; rfl
    | cons c cs ih => intro acc; exact ih (acc + sym c.1 * c.2.expr)
  rw [augment, List.zip_map]
  exact this _ _

theorem hamiltonianOf_ren : ∀ (states : List Dyn) (cost : Expr), (∀ s ∈ states, r (lamName s.name) = lamName (r s.name)) →
    hamiltonianOf (ren r cost) (states.map (renD r)) = ren r (hamiltonianOf cost states)
  | [], _, _ => rfl
  | s :: states, cost, h => by
    have := hamiltonianOf_ren states (cost + sym (lamName s.name) * s.eom) fun x hx => h x (by simp [hx])
    simp only [hamiltonianOf, List.map_cons, List.foldl_cons] at this ⊢
    rw [← this]
    simp only [renD, ren_add, ren_mul, ren_sym, h s (by simp)]

theorem standardForm_ren (n : Nat) : (standardForm n).map (List.map (ren r)) = standardForm n := by
  simp only [standardForm, List.map_map]
  refine List.map_congr_left fun i _ => ?_
  simp only [Function.comp, List.map_map]
  refine List.map_congr_left fun j _ => ?_
  simp only [Function.comp]
  by_cases h1 : i = j + n
  · rw [if_pos h1]; rfl
  · rw [if_neg h1]
    by_cases h2 : j = i + n
    · rw [if_pos h2]; rfl
    · rw [if_neg h2]; rfl

theorem vectorField_ren {S S' : Sympy} (hr : Function.Injective r) (hS : Alike r S S') (H : Expr) (om : List (List Expr)) (basis : List Name) :
    vectorField S' (ren r H) (om.map (List.map (ren r))) (basis.map r) = (vectorField S H om basis).map (List.map (ren r)) := by
  have : (basis.map r).map (fun b => (ren r H).diff b) = (basis.map fun b => H.diff b).map (ren r) := by
    simp [diff_ren hr]
  simp only [vectorField, this, hS.lu]
  cases S.lu om (basis.map fun b => H.diff b) with
  | error e => rfl
  | ok x =>
    refine congrArg Except.ok ?_
    simp

theorem transversality_ren (hr : Function.Injective r) (cost : Expr) (sign : Expr → Expr → Expr)
    (hs : ∀ a b, sign (ren r a) (ren r b) = ren r (sign a b)) (syms : List Name) (lams : List Dyn) :
    transversality (ren r cost) sign (syms.map r) (lams.map (renD r)) = (transversality cost sign syms lams).map (renC r) := by
  simp only [transversality, List.zip_map, List.map_map]
  refine List.map_congr_left fun sl _ => ?_
  simp only [Function.comp, Prod.map, renC, renD, diff_ren hr, ← hs]
  rfl

theorem noether_ren {S S' : Sympy} (hS : Alike r S S') (om : List (List Expr)) (basis : List Name) (field : List Expr) :
    noether S' (om.map (List.map (ren r))) (basis.map r) (field.map (ren r)) = (noether S om basis field).map (ren r) := by
  simp only [noether, hS.lu]
  cases S.lu om field with
  | error e => rfl
  | ok x =>
    have : ∀ (l : List (Name × Expr)) (acc : Expr),
        (l.map fun bx => (r bx.1, ren r bx.2)).foldl (fun acc bx => acc + S'.integrate bx.2 bx.1) (ren r acc) =
          ren r (l.foldl (fun acc bx => acc + S.integrate bx.2 bx.1) acc) := by
      intro l
      induction l with
      | nil => intro acc; rfl
      | cons c cs ih =>
        intro acc
        simp only [List.map_cons, List.foldl_cons, hS.integrate]
        exact ih (acc + S.integrate c.2 c.1)
    refine congrArg Except.ok ?_
    simp only [List.zip_map]
    exact this (basis.zip x) 0

theorem setEoms_ren : ∀ (ds : List Dyn) (es : List Expr), setEoms (ds.map (renD r)) (es.map (ren r)) = (setEoms ds es).map (renD r)
  | [], es => by cases es <;> rfl
  | d :: ds, [] => rfl
  | d :: ds, e :: es => by
    simp only [List.map_cons, setEoms, setEoms_ren ds es]
    rfl

theorem mapM_ren {α β α' β' : Type _} {f : α → α'} {g : β → β'} (F : α → Py β) (F' : α' → Py β') :
    ∀ l : List α, (∀ a ∈ l, F' (f a) = (F a).map g) → (l.map f).mapM F' = (l.mapM F).map (List.map g)
  | [], _ => rfl
  | a :: l, h => by
    simp only [List.map_cons, List.mapM_cons]
    rw [h a (by simp), mapM_ren F F' l fun b hb => h b (by simp [hb])]
    cases F a with
    | error e => rfl
    | ok b =>
      cases l.mapM F with
      | error e => rfl
      | ok bs => rfl

/-- The costates of a list of names. -/
theorem lams_ren (l : List Name) (h : ∀ x ∈ l, r (lamName x) = lamName (r x)) :
    (l.map r).map (fun n => (⟨lamName n, 0⟩ : Dyn)) = (l.map fun n => (⟨lamName n, 0⟩ : Dyn)).map (renD r) := by
  simp only [List.map_map]
  refine List.map_congr_left fun x hx => ?_
  simp [renD, h x hx]

theorem dualize_ren {S S' : Sympy} (hS : Alike r S S') (m : Method) (p : Prob) (hg : Good r p) :
    dualize S' m (renP r p) = (dualize S m p).map (renP r) := by
  have hr := hg.inj
  by_cases h : p.sympified
  · rw [dualize, dualize, if_neg (by simp [renP, h]), if_neg (by simp [h])]
    have hlamS : ∀ x ∈ p.states.map Dyn.name, r (lamName x) = lamName (r x) := fun x hx => hg.lam x (by simp only [List.mem_append]; exact .inl hx)
    have hlamP : ∀ x ∈ p.parameters, r (lamName x) = lamName (r x) := fun x hx => hg.lam x (by simp only [List.mem_append]; exact .inr hx)
    have e0 : nuNames "_nu_0_" (renP r p).initial.length = (nuNames "_nu_0_" p.initial.length).map r := by
      rw [nuNames_ren hg.nu0]; simp [renP]
    have ef : nuNames "_nu_f_" (renP r p).terminal.length = (nuNames "_nu_f_" p.terminal.length).map r := by
      rw [nuNames_ren hg.nuf]; simp [renP]
    have eH : hamiltonianOf (renP r p).costPath (renP r p).states = ren r (hamiltonianOf p.costPath p.states) :=
      hamiltonianOf_ren p.states p.costPath fun s hs => hlamS s.name (List.mem_map_of_mem hs)
    have eN : (renP r p).states.map Dyn.name = (p.states.map Dyn.name).map r := by
      simp [renP, renD, Function.comp_def]
    have eC0 : augment (renP r p).costInitial ((nuNames "_nu_0_" p.initial.length).map r) (renP r p).initial =
        ren r (augment p.costInitial (nuNames "_nu_0_" p.initial.length) p.initial) := augment_ren _ _ _
    have eCf : augment (renP r p).costTerminal ((nuNames "_nu_f_" p.terminal.length).map r) (renP r p).terminal =
        ren r (augment p.costTerminal (nuNames "_nu_f_" p.terminal.length) p.terminal) := augment_ren _ _ _
    have eco : (renP r p).costates ++ ((p.states.map Dyn.name).map r).map (fun n => (⟨lamName n, 0⟩ : Dyn)) =
        (p.costates ++ (p.states.map Dyn.name).map fun n => (⟨lamName n, 0⟩ : Dyn)).map (renD r) := by
      rw [lams_ren _ hlamS]; simp [renP]
    have ecp : (renP r p).coparameters ++ (renP r p).parameters.map (fun n => (⟨lamName n, 0⟩ : Dyn)) =
        (p.coparameters ++ p.parameters.map fun n => (⟨lamName n, 0⟩ : Dyn)).map (renD r) := by
      have : (renP r p).parameters = p.parameters.map r := rfl
      rw [this, lams_ren _ hlamP]; simp [renP]
    simp only [e0, ef, eH, eN, eC0, eCf, eco, ecp]
    set H := hamiltonianOf p.costPath p.states
    set N := p.states.map Dyn.name
    set C := p.costates ++ N.map fun n => (⟨lamName n, 0⟩ : Dyn)
    set P := p.coparameters ++ p.parameters.map fun n => (⟨lamName n, 0⟩ : Dyn)
    set J0 := augment p.costInitial (nuNames "_nu_0_" p.initial.length) p.initial
    set Jf := augment p.costTerminal (nuNames "_nu_f_" p.terminal.length) p.terminal
    have esy : (renP r p).symmetries.map (fun f => f ++ (C.map (renD r)).map fun _ => (0 : Expr)) =
        (p.symmetries.map fun f => f ++ C.map fun _ => (0 : Expr)).map (List.map (ren r)) := by
      simp [renP, Function.comp_def]
    have ecm : (renP r p).coms ++ [("hamiltonian", ren r H)] = (p.coms ++ [("hamiltonian", H)]).map fun c => (c.1, ren r c.2) := by
      simp [renP]
    have ebs : N.map r ++ (renP r p).parameters = (N ++ p.parameters).map r := by simp [renP]
    simp only [esy, ecm, ebs]
    have fin : ∀ (C' P' : List Dyn) (om : Option (List (List Expr))) (cm : List (Name × Expr)),
        ({ renP r p with
          adjoints := (renP r p).adjoints ++ (nuNames "_nu_0_" p.initial.length).map r ++ (nuNames "_nu_f_" p.terminal.length).map r
          costInitial := ren r J0
          costTerminal := ren r Jf
          hamiltonian := some (ren r H)
          costates := C'.map (renD r)
          coparameters := P'.map (renD r)
          symmetries := (p.symmetries.map fun f => f ++ C.map fun _ => (0 : Expr)).map (List.map (ren r))
          omega := om.map (List.map (List.map (ren r)))
          coms := cm.map fun c => (c.1, ren r c.2)
          initial := (renP r p).initial ++ transversality (ren r J0) (fun l d => l + d) ((N ++ p.parameters).map r)
            (C'.map (renD r) ++ P'.map (renD r))
          terminal := (renP r p).terminal ++ transversality (ren r Jf) (fun l d => l - d) ((N ++ p.parameters).map r)
            (C'.map (renD r) ++ P'.map (renD r)) ++ [{ expr := (ren r Jf).diff (renP r p).ind + ren r H }]
          chain := (renP r p).chain ++ [.dualize (C'.map (renD r)).length
            ((renP r p).adjoints ++ (nuNames "_nu_0_" p.initial.length).map r ++ (nuNames "_nu_f_" p.terminal.length).map r).length]
          dualized := true } : Prob) =
        renP r { p with
          adjoints := p.adjoints ++ nuNames "_nu_0_" p.initial.length ++ nuNames "_nu_f_" p.terminal.length
          costInitial := J0
          costTerminal := Jf
          hamiltonian := some H
          costates := C'
          coparameters := P'
          symmetries := p.symmetries.map fun f => f ++ C.map fun _ => (0 : Expr)
          omega := om
          coms := cm
          initial := p.initial ++ transversality J0 (fun l d => l + d) (N ++ p.parameters) (C' ++ P')
          terminal := p.terminal ++ transversality Jf (fun l d => l - d) (N ++ p.parameters) (C' ++ P') ++
            [{ expr := Jf.diff p.ind + H }]
          chain := p.chain ++ [.dualize C'.length (p.adjoints ++ nuNames "_nu_0_" p.initial.length ++ nuNames "_nu_f_" p.terminal.length).length]
          dualized := true } := by
      intro C' P' om cm
      rw [← List.map_append, transversality_ren hr J0 (fun l d => l + d) (fun _ _ => rfl),
        transversality_ren hr Jf (fun l d => l - d) (fun _ _ => rfl)]
      have : (ren r Jf).diff (renP r p).ind = ren r (Jf.diff p.ind) := diff_ren hr _ _
      rw [this]
      simp only [renP, List.map_append, List.map_cons, List.map_nil, renT, List.length_append, List.length_map, Option.map_some]
      rfl
    cases m with
    | traditional =>
      have el : setEoms (C.map (renD r) ++ P.map (renD r)) (((N ++ p.parameters).map r).map fun s => -((ren r H).diff s)) =
          (setEoms (C ++ P) ((N ++ p.parameters).map fun s => -(H.diff s))).map (renD r) := by
        rw [← setEoms_ren, ← List.map_append]
        congr 1
        rw [List.map_map, List.map_map]
        exact List.map_congr_left fun s _ => by simp [diff_ren hr]
      simp only [el, List.length_map, ← List.map_take, ← List.map_drop]
      exact congrArg Except.ok (fin _ _ _ _)
    | other => exact congrArg Except.ok (fin _ _ _ _)
    | diffyg =>
      simp only [List.length_map, ← List.map_append]
      by_cases hl : (N ++ p.parameters).length ≠ (C ++ P).length
      · rw [if_pos hl, if_pos hl]
        rfl
      · rw [if_neg hl, if_neg hl]
        have eb : (N ++ p.parameters).map r ++ ((C ++ P).map (renD r)).map Dyn.name =
            ((N ++ p.parameters) ++ (C ++ P).map Dyn.name).map r := by
          simp [renD, Function.comp_def]
        have eb2 : N.map r ++ (C.map (renD r)).map Dyn.name = (N ++ C.map Dyn.name).map r := by
          simp [renD, Function.comp_def]
        have ev := vectorField_ren hr hS H (standardForm (N ++ p.parameters).length) ((N ++ p.parameters) ++ (C ++ P).map Dyn.name)
        rw [standardForm_ren] at ev
        simp only [eb, eb2, ev]
        cases vectorField S H (standardForm (N ++ p.parameters).length) ((N ++ p.parameters) ++ (C ++ P).map Dyn.name) with
        | error e => rfl
        | ok chi =>
          have en : ∀ f : List Expr, noether S' (standardForm (N ++ p.parameters).length) ((N ++ C.map Dyn.name).map r) (f.map (ren r)) =
              (noether S (standardForm (N ++ p.parameters).length) (N ++ C.map Dyn.name) f).map (ren r) := by
            intro f
            have := noether_ren hS (standardForm (N ++ p.parameters).length) (N ++ C.map Dyn.name) f
            rwa [standardForm_ren] at this
          have em := mapM_ren (f := List.map (ren r)) (g := ren r)
            (noether S (standardForm (N ++ p.parameters).length) (N ++ C.map Dyn.name))
            (noether S' (standardForm (N ++ p.parameters).length) ((N ++ C.map Dyn.name).map r))
            (p.symmetries.map fun f => f ++ C.map fun _ => (0 : Expr)) fun f _ => en f
          simp only [bind, Except.bind, Except.map] at em ⊢
          rw [em]
          cases (p.symmetries.map fun f => f ++ C.map fun _ => (0 : Expr)).mapM
            (noether S (standardForm (N ++ p.parameters).length) (N ++ C.map Dyn.name)) with
          | error e => rfl
          | ok stars =>
            have e1 : (renP r p).states.length = p.states.length := by simp [renP]
            simp only [e1, List.length_map, ← List.map_drop, setEoms_ren]
            have := fin (setEoms C (chi.drop (chi.length - p.states.length))) P (some (standardForm (N ++ p.parameters).length))
              (p.coms ++ [("hamiltonian", H)] ++ stars.zipIdx.map fun gi => ("com_" ++ toString gi.2, gi.1))
            rw [← this]
            simp only [Option.map_some, standardForm_ren, List.map_append, List.zipIdx_map, List.map_map, List.length_map]
            rfl
  · rw [dualize, dualize, if_pos (by simp [renP, h]), if_pos (by simp [h])]
    rfl

end Beluga.Rename
