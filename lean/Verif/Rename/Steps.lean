import Verif.Rename.Lemmas

/-! # Renaming commutes with the functors of the pipelines -/

namespace Beluga.Rename

open Beluga.Sym Beluga.Sym.Expr

variable {r : Name → Name}

/-- The names made for an intermediate problem. -/
def Good (r : Name → Name) (p : Prob) : Prop := Names r p.ind (p.states.map Dyn.name ++ p.parameters) p.controls p.path.length

theorem dependsOn_ren (hr : Function.Injective r) (x : Name) (e : Expr) : dependsOn (r x) (ren r e) = dependsOn x e := by
  simp only [dependsOn, free_ren, mem_map_iff hr]

theorem momentumShift_ren (hr : Function.Injective r) (p : Prob) (ht : r ("_" ++ p.ind) = "_" ++ r p.ind) :
    momentumShift (renP r p) = (momentumShift p).map (renP r) := by
  have hi : ((p.states.map (renD r)) ++ [(⟨r p.ind, 1⟩ : Dyn)]).all (fun s => !dependsOn (r p.ind) s.eom) =
      (p.states ++ [(⟨p.ind, 1⟩ : Dyn)]).all (fun s => !dependsOn p.ind s.eom) := by
    have : (p.states.map (renD r)) ++ [(⟨r p.ind, 1⟩ : Dyn)] = (p.states ++ [(⟨p.ind, 1⟩ : Dyn)]).map (renD r) := by simp [renD]
    rw [this, List.all_map]
    congr 1
    funext s
    simp [renD, dependsOn_ren hr]
  by_cases h : p.sympified
  · rw [momentumShift, momentumShift, if_neg (by simp [renP, h]), if_neg (by simp [h])]
    refine congrArg Except.ok ?_
    simp only [renP, hi, ht, List.length_append, List.length_map]
    by_cases hb : (p.states ++ [(⟨p.ind, 1⟩ : Dyn)]).all (fun s => !dependsOn p.ind s.eom)
    · simp [hb, renD, renT]
    · simp [hb, renD, renT]
  · rw [momentumShift, momentumShift, if_pos (by simp [renP, h]), if_pos (by simp [h])]
    rfl

theorem epsTrig_ren (p : Prob) (hg : Good r p) : epsTrig (renP r p) = (epsTrig p).map (renP r) := by
  have hr := hg.inj
  by_cases h : p.sympified
  · rw [epsTrig, epsTrig, if_neg (by simp [renP, h]), if_neg (by simp [h])]
    have h1 : (renP r p).path.findIdx? (fun c => c.method = .epstrig) = p.path.findIdx? (fun c => c.method = .epstrig) := by
      simp only [renP, List.findIdx?_map]
      rfl
    rw [h1]
    cases hi : p.path.findIdx? (fun c => c.method = .epstrig) with
    | none => rfl
    | some i =>
      have h2 : (renP r p).path[i]? = p.path[i]?.map (renC r) := by simp [renP]
      simp only [h2]
      cases hc : p.path[i]? with
      | none => rfl
      | some c =>
        simp only [Option.map_some]
        have h3 : (renP r p).controls.findIdx? (fun u => (renC r c).expr = sym u) = p.controls.findIdx? (fun u => c.expr = sym u) := by
          simp only [renP, List.findIdx?_map, renC]
          congr 1
          funext u
          simp [ren_eq_sym hr]
        rw [h3]
        cases hk : p.controls.findIdx? (fun u => c.expr = sym u) with
        | none => rfl
        | some k =>
          have h4 : (renP r p).controls[k]? = p.controls[k]?.map r := by simp [renP]
          simp only [h4]
          have h5 : (renC r c).activator = c.activator.map (ren r) := rfl
          have h6 : (renC r c).lower = c.lower.map (ren r) := rfl
          have h7 : (renC r c).upper = c.upper.map (ren r) := rfl
          rw [h5, h6, h7]
          cases hu : p.controls[k]? with
          | none => cases c.activator <;> cases c.lower <;> cases c.upper <;> rfl
          | some u =>
            cases c.activator with
            | none => cases c.lower <;> cases c.upper <;> rfl
            | some a =>
              cases c.lower with
              | none => cases c.upper <;> rfl
              | some lo =>
                cases c.upper with
                | none => rfl
                | some hi =>
                  have hn : r ("_" ++ u ++ "_trig") = "_" ++ r u ++ "_trig" := by
                    have hlen : 1 ≤ p.path.length := by
                      have : i < p.path.length := by
                        by_contra h
                        rw [List.getElem?_eq_none (by omega)] at hc
                        cases hc
                      omega
                    exact hg.angle u (List.mem_of_getElem? hu) 1 hlen
                  simp only [Option.map_some]
                  have e1 : ({ renP r p with
                      path := (renP r p).path.eraseIdx i
                      controls := (renP r p).controls.set k ("_" ++ r u ++ "_trig")
                      costPath := (renP r p).costPath + (-(ren r a)) * fn .cos (sym ("_" ++ r u ++ "_trig")) } : Prob) =
                      renP r { p with
                        path := p.path.eraseIdx i
                        controls := p.controls.set k ("_" ++ u ++ "_trig")
                        costPath := p.costPath + (-a) * fn .cos (sym ("_" ++ u ++ "_trig")) } := by
                    simp only [renP, List.map_set, hn, ren_add, ren_mul, ren_neg, ren_fn, ren_sym, List.eraseIdx_map]
                  have e2 : (ren r hi - ren r lo) / 2 * fn .sin (sym ("_" ++ r u ++ "_trig")) + (ren r hi + ren r lo) / 2 =
                      ren r ((hi - lo) / 2 * fn .sin (sym ("_" ++ u ++ "_trig")) + (hi + lo) / 2) := by
                    simp [hn]
                  rw [e1, e2, subsAll_ren hr]
                  refine congrArg Except.ok ?_
                  simp [renP, renT, renD, Function.comp_def]
  · rw [epsTrig, epsTrig, if_pos (by simp [renP, h]), if_pos (by simp [h])]
    rfl

theorem twoSided_ren (c : Con) : (renC r c).twoSided = c.twoSided := by
  cases c with
  | mk ex lo hi a m => cases lo <;> cases hi <;> rfl

theorem isUtm_ren (c : Con) : isUtm (renC r c) = isUtm c := by
  simp only [isUtm, twoSided_ren]
  rfl

theorem utmFind_ren (p : Prob) : utmFind (renP r p) = utmFind p := by
  have : ∀ l : List Con, (l.map (renC r)).findIdx? isUtm = l.findIdx? isUtm := by
    intro l
    rw [List.findIdx?_map]
    congr 1
    funext c
    exact isUtm_ren c
  simp only [utmFind, renP, this]

theorem conList_ren (p : Prob) (loc : Nat) : (renP r p).conList loc = (p.conList loc).map (renC r) := by
  match loc with
  | 0 => rfl
  | 1 => rfl
  | _ + 2 => rfl

theorem utm_ren (hr : Function.Injective r) (p : Prob) : utm (renP r p) = (utm p).map (renP r) := by
  by_cases h : p.sympified
  · rw [utm, utm, if_neg (by simp [renP, h]), if_neg (by simp [h]), utmFind_ren]
    cases hf : utmFind p with
    | none => rfl
    | some li =>
      obtain ⟨loc, i⟩ := li
      simp only [conList_ren, List.getElem?_map]
      cases hc : (p.conList loc)[i]? with
      | none => rfl
      | some c =>
        simp only [Option.map_some]
        have h5 : (renC r c).activator = c.activator.map (ren r) := rfl
        have h6 : (renC r c).lower = c.lower.map (ren r) := rfl
        have h7 : (renC r c).upper = c.upper.map (ren r) := rfl
        rw [h5, h6, h7]
        cases c.activator with
        | none => cases c.lower <;> cases c.upper <;> rfl
        | some a =>
          cases c.lower with
          | none => cases c.upper <;> rfl
          | some lo =>
            cases c.upper with
            | none => rfl
            | some hi =>
              simp only [Option.map_some]
              have h8 : ((renP r p).constants.any fun k => ren r a = sym k) = p.constants.any fun k => a = sym k := by
                simp only [renP, List.any_map]
                congr 1
                funext k
                simp [ren_eq_sym hr]
              rw [h8]
              have h9 : utmTerm (ren r a) (renC r c).expr (ren r lo) (ren r hi) = ren r (utmTerm a c.expr lo hi) := rfl
              rw [h9]
              by_cases hk : (p.constants.any fun k => a = sym k) = true
              · rw [if_pos hk, if_pos hk]
                refine congrArg Except.ok ?_
                simp only [renP, List.map_append, List.map_cons, List.map_nil, renT]
                by_cases l0 : loc = 0
                · subst l0
                  simp [List.eraseIdx_map]
                · by_cases l1 : loc = 1
                  · subst l1
                    simp [List.eraseIdx_map]
                  · by_cases l2 : loc = 2
                    · subst l2
                      simp [List.eraseIdx_map]
                    · simp [l0, l1, l2]
              · rw [if_neg hk, if_neg hk]
                rfl
  · rw [utm, utm, if_pos (by simp [renP, h]), if_pos (by simp [h])]
    rfl

theorem normalizeTime_ren (p : Prob) (ht : r "_tau" = "_tau") (hd : r ("_delta" ++ p.ind) = "_delta" ++ r p.ind) :
    normalizeTime (renP r p) = (normalizeTime p).map (renP r) := by
  by_cases h : p.sympified
  · rw [normalizeTime, normalizeTime, if_neg (by simp [renP, h]), if_neg (by simp [h])]
    refine congrArg Except.ok ?_
    simp [renP, renT, renD, Function.comp_def, hd, ht]
  · rw [normalizeTime, normalizeTime, if_pos (by simp [renP, h]), if_pos (by simp [h])]
    rfl

theorem squash_ren (p : Prob) : squash (renP r p) = (squash p).map (renP r) := by
  refine congrArg Except.ok ?_
  simp [renP, renT]

theorem jacobian_ren (hr : Function.Injective r) (rows : List Expr) (cols : List Name) :
    jacobian (rows.map (ren r)) (cols.map r) = (jacobian rows cols).map (List.map (List.map (ren r))) := by
  by_cases h : rows = [] ∨ cols = []
  · rw [jacobian, jacobian, if_pos (by simpa using h), if_pos h]
    rfl
  · rw [jacobian, jacobian, if_neg (by simpa using h), if_neg h]
    refine congrArg Except.ok ?_
    simp [diff_ren hr]

theorem bind_map_ren {α β α' β' : Type _} {f : α → α'} {g : β → β'} (x : Py α) (y : α → Py β) (y' : α' → Py β')
    (h : ∀ a, x = .ok a → y' (f a) = (y a).map g) : (x.map f >>= y') = (x >>= y).map g := by
  cases x with
  | error e => rfl
  | ok a => exact h a rfl

theorem negDot_ren (row eom : List Expr) : negDot (row.map (ren r)) (eom.map (ren r)) = ren r (negDot row eom) := by
  have : ∀ (l : List (Expr × Expr)) (acc : Expr),
      (l.map fun ab => (ren r ab.1, ren r ab.2)).foldl (fun acc ab => acc + ab.1 * ab.2) (ren r acc) =
        ren r (l.foldl (fun acc ab => acc + ab.1 * ab.2) acc) := by
    intro l
    induction l with
    | nil => intro acc; rfl
    | cons c cs ih => intro acc; exact ih (acc + c.1 * c.2)
  rw [negDot, List.zip_map]
  exact congrArg (fun e => -e) (this (row.zip eom) 0)

end Beluga.Rename
