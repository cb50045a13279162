import Verif.Rename.Control
import Verif.Direct.Model

/-! # Renaming commutes with the pipelines -/

namespace Beluga.Rename

open Beluga.Sym Beluga.Sym.Expr

variable {r : Name → Name}

/-- What the names made up by the functors depend on. -/
def shape (p : Prob) : Name × List Name × List Name × List Name × Nat :=
  (p.ind, p.states.map Dyn.name, p.parameters, p.controls, p.path.length)

theorem Good.of_shape {p q : Prob} (h : shape q = shape p) (hg : Good r p) : Good r q := by
  simp only [shape, Prod.mk.injEq] at h
  obtain ⟨h1, h2, h3, h4, h5⟩ := h
  unfold Good
  rw [h1, h2, h3, h4, h5]
  exact hg

theorem shape_subsAll (x : Name) (e : Expr) (p : Prob) : shape (p.subsAll x e) = shape p := by
  simp [shape, Prob.subsAll, Dyn.subs, Function.comp_def]

theorem shape_elim (p : Prob) : ∀ k, shape (elimLoop p k) = shape p
  | 0 => rfl
  | k + 1 => by
    simp only [elimLoop]
    cases (elimLoop p k).quantities[k]? with
    | none => exact shape_elim p k
    | some q => exact (shape_subsAll _ _ _).trans (shape_elim p k)

theorem shape_rashs (p : Prob) : ∀ k, shape (rashsLoop p k) = shape p
  | 0 => rfl
  | k + 1 => by
    simp only [rashsLoop]
    cases (rashsLoop p k).switches[k]? with
    | none => exact shape_rashs p k
    | some q => exact (shape_subsAll _ _ _).trans (shape_rashs p k)

theorem shape_preprocess {p q : Prob} (h : preprocess p = .ok q) : shape q = shape p := by
  rw [preprocess, Prob.sympify] at h
  by_cases hs : p.states.length < 1
  · rw [if_pos hs] at h
    cases h
  · rw [if_neg hs] at h
    simp only [bind, Except.bind, applyQuantities, Bool.not_true] at h
    rw [if_neg (by simp)] at h
    cases h
    exact shape_elim _ _

theorem Names.mono {t : Name} {dyn cs : List Name} {n m : Nat} (h : Names r t dyn cs n) (hm : m ≤ n) : Names r t dyn cs m :=
  { h with
    angle := fun u hu k hk => h.angle u hu k (hk.trans hm)
    lamu := fun u hu k hk => h.lamu u hu k (hk.trans hm) }

theorem Good.utm {p q : Prob} (hg : Good r p) (h : Sym.utm p = .ok q) : Good r q := by
  rw [Sym.utm] at h
  by_cases hs : p.sympified
  · rw [if_neg (by simp [hs])] at h
    cases hf : utmFind p with
    | none => rw [hf] at h; cases h
    | some li =>
      obtain ⟨loc, i⟩ := li
      rw [hf] at h
      simp only at h
      cases hc : (p.conList loc)[i]? with
      | none => rw [hc] at h; cases h
      | some c =>
        rw [hc] at h
        simp only at h
        cases ha : c.activator with
        | none => rw [ha] at h; cases h
        | some a =>
          cases hl : c.lower with
          | none => rw [ha, hl] at h; cases h
          | some lo =>
            cases hh : c.upper with
            | none => rw [ha, hl, hh] at h; cases h
            | some hi =>
              rw [ha, hl, hh] at h
              simp only at h
              by_cases hk : p.constants.any fun k => a = sym k
              · rw [if_pos hk] at h
                cases h
                refine Names.mono (n := p.path.length) hg ?_
                by_cases h1 : loc = 1
                · simp only [if_pos h1]
                  exact List.length_eraseIdx_le p.path i
                · simp only [if_neg h1]
                  exact le_rfl
              · rw [if_neg hk] at h
                cases h
  · rw [if_pos (by simp [hs])] at h
    cases h

theorem Good.epsTrig {p q : Prob} (hg : Good r p) (h : Sym.epsTrig p = .ok q) : Good r q := by
  rw [Sym.epsTrig] at h
  by_cases hs : p.sympified
  · rw [if_neg (by simp [hs])] at h
    cases hi : p.path.findIdx? (fun c => c.method = .epstrig) with
    | none => rw [hi] at h; cases h
    | some i =>
      rw [hi] at h
      simp only at h
      cases hc : p.path[i]? with
      | none => rw [hc] at h; cases h
      | some c =>
        rw [hc] at h
        simp only at h
        cases hk : p.controls.findIdx? (fun u => c.expr = sym u) with
        | none => rw [hk] at h; cases h
        | some k =>
          rw [hk] at h
          simp only at h
          cases hu : p.controls[k]? with
          | none => rw [hu] at h; cases h
          | some u =>
            cases ha : c.activator with
            | none => rw [hu, ha] at h; cases h
            | some a =>
              cases hl : c.lower with
              | none => rw [hu, ha, hl] at h; cases h
              | some lo =>
                cases hh : c.upper with
                | none => rw [hu, ha, hl, hh] at h; cases h
                | some hi' =>
                  rw [hu, ha, hl, hh] at h
                  cases h
                  have hil : i < p.path.length := by
                    by_contra hn
                    rw [List.getElem?_eq_none (by omega)] at hc
                    cases hc
                  have hum := List.mem_of_getElem? hu
                  have hr1 : r ("_" ++ u ++ "_trig") = "_" ++ r u ++ "_trig" := hg.angle u hum 1 (by omega)
                  have hlen : (p.path.eraseIdx i).length + 1 = p.path.length := by
                    rw [List.length_eraseIdx_of_lt hil]
                    omega
                  refine Good.of_shape (p := { p with path := p.path.eraseIdx i, controls := p.controls.set k ("_" ++ u ++ "_trig") })
                    ?_ ?_
                  · simp [shape, Prob.subsAll, Dyn.subs, Function.comp_def]
                  · refine ⟨hg.inj, hg.tau, hg.delta, hg.nu0, hg.nuf, hg.lam, ?_, ?_⟩
                    · intro v hv j hj
                      rcases List.mem_or_eq_of_mem_set hv with hv | rfl
                      · exact hg.angle v hv j (by simp only at hj; omega)
                      · have := hg.angle u hum (j + 1) (by simp only at hj; omega)
                        rw [hr1]
                        exact this
                    · intro v hv j hj
                      rcases List.mem_or_eq_of_mem_set hv with hv | rfl
                      · exact hg.lamu v hv j (by simp only at hj; omega)
                      · have := hg.lamu u hum (j + 1) (by simp only at hj; omega)
                        rw [hr1]
                        exact this
  · rw [if_pos (by simp [hs])] at h
    cases h

theorem Good.shift {p q : Prob} (hm : Made r true p) (h : Sym.momentumShift p = .ok q) : Good r q := by
  rw [Sym.momentumShift] at h
  by_cases hs : p.sympified
  · rw [if_neg (by simp [hs])] at h
    cases h
    simpa [Good] using hm.names
  · rw [if_pos (by simp [hs])] at h
    cases h

/-- Every functor of the list commutes with the renaming of the problem it is applied to. -/
def StepsOk (r : Name → Name) (S S' : Sympy) : List Step → Prob → Prop
  | [], _ => True
  | s :: ss, p => s.run S' (renP r p) = (s.run S p).map (renP r) ∧ ∀ q, s.run S p = .ok q → StepsOk r S S' ss q

theorem StepsOk.append {S S' : Sympy} : ∀ {a b : List Step} {p : Prob}, StepsOk r S S' a p →
    (∀ q, runSteps S a p = .ok q → StepsOk r S S' b q) → StepsOk r S S' (a ++ b) p
  | [], _, p, _, hb => hb p rfl
  | s :: a, b, p, ha, hb => ⟨ha.1, fun q hq => StepsOk.append (ha.2 q hq) fun q' hq' => hb q' (by
      rw [runSteps, List.foldlM_cons, hq]
      exact hq')⟩

theorem runSteps_ren {S S' : Sympy} : ∀ (steps : List Step) (p : Prob), StepsOk r S S' steps p →
    runSteps S' steps (renP r p) = (runSteps S steps p).map (renP r)
  | [], _, _ => rfl
  | s :: ss, p, h => by
    simp only [runSteps, List.foldlM_cons]
    rw [h.1]
    exact bind_map_ren _ _ _ fun q hq => runSteps_ren ss q (h.2 q hq)

theorem ineq_ok {S S' : Sympy} : ∀ (steps : List Step) (p : Prob), (∀ s ∈ steps, s = .epsTrig ∨ s = .utm) → Good r p →
    StepsOk r S S' steps p ∧ ∀ q, runSteps S steps p = .ok q → Good r q
  | [], p, _, hg => ⟨trivial, fun q hq => by cases hq; exact hg⟩
  | s :: ss, p, hs, hg => by
    have key : s.run S' (renP r p) = (s.run S p).map (renP r) ∧ ∀ q, s.run S p = .ok q → Good r q := by
      rcases hs s (by simp) with rfl | rfl
      · exact ⟨epsTrig_ren p hg, fun q hq => hg.epsTrig hq⟩
      · exact ⟨utm_ren hg.inj p, fun q hq => hg.utm hq⟩
    refine ⟨⟨key.1, fun q hq => (ineq_ok ss q (fun s h => hs s (by simp [h])) (key.2 q hq)).1⟩, fun q hq => ?_⟩
    rw [runSteps, List.foldlM_cons] at hq
    cases h1 : s.run S p with
    | error e => rw [h1] at hq; cases hq
    | ok p1 =>
      rw [h1] at hq
      exact (ineq_ok (S' := S') ss p1 (fun s h => hs s (by simp [h])) (key.2 p1 h1)).2 q hq

theorem mem_of_mapM {α β : Type} (f : α → Py β) : ∀ {l : List α} {out : List β}, l.mapM f = .ok out → ∀ s ∈ out, ∃ c ∈ l, f c = .ok s
  | [], out, h => by cases h; simp
  | c :: l, out, h => by
    rw [List.mapM_cons] at h
    cases h1 : f c with
    | error e => rw [h1] at h; cases h
    | ok b =>
      rw [h1] at h
      cases h2 : l.mapM f with
      | error e => simp only [bind, Except.bind, h2] at h; cases h
      | ok rest =>
        simp only [bind, Except.bind, h2] at h
        cases h
        intro s hs
        rcases List.mem_cons.1 hs with rfl | hs
        · exact ⟨c, by simp, h1⟩
        · obtain ⟨c', hc', h'⟩ := mem_of_mapM f h2 s hs
          exact ⟨c', by simp [hc'], h'⟩

theorem ineqSteps_kinds {cons : List Con} {steps : List Step} (h : ineqSteps cons = .ok steps) :
    ∀ s ∈ steps, s = .epsTrig ∨ s = .utm := by
  intro s hs
  obtain ⟨c, _, hc⟩ := mem_of_mapM _ h s hs
  cases hm : c.method with
  | epstrig => rw [hm] at hc; cases hc; exact .inl rfl
  | utm => rw [hm] at hc; cases hc; exact .inr rfl
  | other => rw [hm] at hc; cases hc

theorem ineqSteps_ren (cons : List Con) : ineqSteps (cons.map (renC r)) = ineqSteps cons := by
  have : (cons.map (renC r)).filter Con.twoSided = (cons.filter Con.twoSided).map (renC r) := by
    rw [List.filter_map]
    congr 2
    funext c
    exact twoSided_ren c
  rw [ineqSteps, ineqSteps, this]
  generalize cons.filter Con.twoSided = l
  induction l with
  | nil => rfl
  | cons c l ih =>
    rw [List.map_cons, List.mapM_cons, List.mapM_cons, ih]
    rfl

theorem indirectSteps_ren (o : Opts) (p : Prob) : indirectSteps o (renP r p) = indirectSteps o p := by
  have h1 : (renP r p).initial ++ (renP r p).path ++ (renP r p).terminal = (p.initial ++ p.path ++ p.terminal).map (renC r) := by
    simp [renP]
  have h2 : (renP r p).switches.length = p.switches.length := by simp [renP]
  rw [indirectSteps, indirectSteps, h1, h2, ineqSteps_ren]

theorem directSteps_ren (a b c : Bool) (p : Prob) : directSteps a b c (renP r p) = directSteps a b c p := by
  have h1 : (renP r p).initial ++ (renP r p).path ++ (renP r p).terminal = (p.initial ++ p.path ++ p.terminal).map (renC r) := by
    simp [renP]
  have h2 : (renP r p).switches.length = p.switches.length := by simp [renP]
  rw [directSteps, directSteps, h1, h2, ineqSteps_ren]

theorem dualize_keeps {S : Sympy} {m : Method} {p q : Prob} (h : Sym.dualize S m p = .ok q) : q.ind = p.ind ∧ q.controls = p.controls := by
  rw [Sym.dualize] at h
  by_cases hs : p.sympified
  · rw [if_neg (by simp [hs])] at h
    cases m with
    | traditional => cases h; exact ⟨rfl, rfl⟩
    | other => cases h; exact ⟨rfl, rfl⟩
    | diffyg =>
      simp only [bind, Except.bind] at h
      split at h
      · cases h
      · split at h
        · cases h
        · split at h
          · cases h
          · cases h
            exact ⟨rfl, rfl⟩
  · rw [if_pos (by simp [hs])] at h
    cases h

theorem algebraic_keeps {S : Sympy} {p q : Prob} (h : algebraicControl S p = .ok q) : q.ind = p.ind := by
  rw [algebraicControl] at h
  by_cases hs : p.dualized
  · rw [if_neg (by simp [hs])] at h
    cases hH : p.hamiltonian with
    | none => rw [hH] at h; cases h
    | some H =>
      rw [hH] at h
      simp only [bind, Except.bind] at h
      split at h
      · cases h
      · cases h
        rfl
  · rw [if_pos (by simp [hs])] at h
    cases h

theorem differential_keeps {S : Sympy} {m : Method} {p q : Prob} (h : differentialControl S m p = .ok q) : q.ind = p.ind := by
  rw [differentialControl] at h
  by_cases hs : p.dualized
  · rw [if_neg (by simp [hs])] at h
    cases hH : p.hamiltonian with
    | none => rw [hH] at h; cases h
    | some H =>
      rw [hH] at h
      simp only [bind, Except.bind] at h
      split at h
      · cases h
      · split at h
        · cases h
        · split at h
          · cases h
          · cases m with
            | traditional => cases h; rfl
            | other => cases h
            | diffyg =>
              simp only at h
              split at h
              · cases h
              · split at h
                · cases h
                · cases h; rfl
  · rw [if_pos (by simp [hs])] at h
    cases h

/-- The problem after the control law and the names that are still to be made up. -/
theorem tail_ok {S S' : Sympy} (hr : Function.Injective r) (ht : r "_tau" = "_tau") (norm jac : Bool) (p : Prob)
    (hd : r ("_delta" ++ p.ind) = "_delta" ++ r p.ind) :
    StepsOk r S S' ((if norm then [.normalizeTime] else []) ++ [.squash] ++ (if jac then [.jacobians] else [])) p := by
  have h2 : ∀ q, StepsOk r S S' ([Step.squash] ++ (if jac then [.jacobians] else [])) q := by
    intro q
    refine ⟨squash_ren q, fun q' _ => ?_⟩
    cases jac with
    | false => trivial
    | true => exact ⟨jacobians_ren hr q', fun _ _ => trivial⟩
  cases norm with
  | false => exact h2 p
  | true => exact ⟨normalizeTime_ren p ht hd, fun q _ => h2 q⟩

theorem dual_ok {S S' : Sympy} (hS : Alike r S S') (o : Opts) (ctl : Step)
    (hc : ctl = .algebraic ∨ ctl = .differential o.method) (jac : Bool) (p : Prob) (hg : Good r p) :
    StepsOk r S S' ([.dualize o.method, ctl] ++
      ((if o.normalizeTime then [.normalizeTime] else []) ++ [.squash] ++ (if jac then [.jacobians] else []))) p := by
  refine ⟨dualize_ren hS o.method p hg, fun q hq => ?_⟩
  obtain ⟨h1, h2⟩ := dualize_keeps hq
  rcases hc with rfl | rfl
  · refine ⟨algebraic_ren hg.inj hS q, fun q' hq' => tail_ok hg.inj hg.tau _ _ q' ?_⟩
    rw [algebraic_keeps hq', h1]
    exact hg.delta
  · refine ⟨differential_ren hg.inj hS o.method q fun u hu => ?_, fun q' hq' => tail_ok hg.inj hg.tau _ _ q' ?_⟩
    · rw [h2] at hu
      exact hg.lamu u hu 0 (Nat.zero_le _)
    · rw [differential_keeps hq', h1]
      exact hg.delta

/-- The momentum shift, the two-sided constraints and the switches. -/
theorem head_ok {S S' : Sympy} (shift rsh : Bool) (ineq : List Step) (hi : ∀ s ∈ ineq, s = .epsTrig ∨ s = .utm) (p : Prob)
    (hm : Made r shift p) :
    StepsOk r S S' ((if shift then [.momentumShift] else []) ++ ineq ++ (if rsh then [.rashs] else [])) p ∧
      ∀ q, runSteps S ((if shift then [.momentumShift] else []) ++ ineq ++ (if rsh then [.rashs] else [])) p = .ok q → Good r q := by
  have h1 : ∀ p, Good r p → StepsOk r S S' (ineq ++ (if rsh then [.rashs] else [])) p ∧
      ∀ q, runSteps S (ineq ++ (if rsh then [.rashs] else [])) p = .ok q → Good r q := by
    intro p hg
    have hk := ineq_ok (S := S) (S' := S') ineq p hi hg
    have hrs : ∀ p q, Good r p → Step.run S .rashs p = .ok q → Good r q := by
      intro p q hg hq
      rw [Step.run, rashs] at hq
      by_cases hs : p.sympified
      · rw [if_neg (by simp [hs])] at hq
        cases hq
        exact Good.of_shape (shape_rashs p _) hg
      · rw [if_pos (by simp [hs])] at hq
        cases hq
    cases rsh with
    | false => simpa using hk
    | true =>
      refine ⟨StepsOk.append hk.1 fun q hq => ⟨rashs_ren hg.inj q, fun _ _ => trivial⟩, fun q hq => ?_⟩
      rw [runSteps, List.foldlM_append] at hq
      cases h3 : runSteps S ineq p with
      | error e =>
        rw [runSteps] at h3
        rw [h3] at hq
        cases hq
      | ok p1 =>
        have h3' := h3
        rw [runSteps] at h3'
        rw [h3'] at hq
        have hq1 : Step.run S .rashs p1 = .ok q := by
          have hq2 : (Step.run S .rashs p1 >>= fun x => Except.ok x) = Except.ok q := hq
          cases h4 : Step.run S .rashs p1 with
          | error e => rw [h4] at hq2; cases hq2
          | ok p2 => rw [h4] at hq2; cases hq2; rfl
        exact hrs p1 q (hk.2 p1 h3) hq1
  cases shift with
  | false => exact h1 p (by simpa [Good] using hm.names)
  | true =>
    refine ⟨⟨momentumShift_ren hm.names.inj p (hm.time rfl), fun q hq => (h1 q (Good.shift hm hq)).1⟩, fun q hq => ?_⟩
    have hq' : (do let p1 ← Step.run S .momentumShift p; runSteps S (ineq ++ (if rsh then [Step.rashs] else [])) p1) = .ok q := hq
    cases h3 : Step.run S .momentumShift p with
    | error e => rw [h3] at hq'; cases hq'
    | ok p1 =>
      rw [h3] at hq'
      exact (h1 p1 (Good.shift hm h3)).2 q hq'

theorem Made.of_shape {shift : Bool} {p q : Prob} (h : shape q = shape p) (hm : Made r shift p) : Made r shift q := by
  simp only [shape, Prod.mk.injEq] at h
  obtain ⟨h1, h2, h3, h4, h5⟩ := h
  refine ⟨?_, ?_⟩
  · rw [h1]; exact hm.time
  · rw [h1, h2, h3, h4, h5]; exact hm.names

theorem indirect_ok {S S' : Sympy} (hS : Alike r S S') (o : Opts) (p : Prob) (hm : Made r o.momentumShift p) {steps : List Step}
    (hs : indirectSteps o p = .ok steps) : StepsOk r S S' steps p := by
  rw [indirectSteps] at hs
  cases hi : ineqSteps (p.initial ++ p.path ++ p.terminal) with
  | error e => rw [hi] at hs; cases hs
  | ok ineq =>
    rw [hi] at hs
    have key : ∀ ctl, (ctl = .algebraic ∨ ctl = .differential o.method) → ∀ rs jac : Bool,
        StepsOk r S S' ((if o.momentumShift then [.momentumShift] else []) ++ ineq ++ (if rs then [.rashs] else []) ++
          ([.dualize o.method, ctl] ++ ((if o.normalizeTime then [.normalizeTime] else []) ++ [.squash] ++
            (if jac then [.jacobians] else [])))) p := by
      intro ctl hc rs jac
      have h := head_ok (S := S) (S' := S') o.momentumShift rs ineq (ineqSteps_kinds hi) p hm
      exact StepsOk.append h.1 fun q hq => dual_ok hS o ctl hc jac q (h.2 q hq)
    have e : (if p.switches.length > 0 then [Step.rashs] else []) = (if decide (p.switches.length > 0) = true then [Step.rashs] else []) := by
      simp
    cases hc : o.controlMethod with
    | other => rw [hc] at hs; cases hs
    | algebraic =>
      rw [hc] at hs
      cases hs
      have := key .algebraic (.inl rfl) (decide (p.switches.length > 0)) (o.analyticalJacobian && o.controlMethod ≠ .algebraic)
      rw [← e, hc] at this
      simpa only [List.append_assoc] using this
    | differential =>
      rw [hc] at hs
      cases hs
      have := key (.differential o.method) (.inr rfl) (decide (p.switches.length > 0))
        (o.analyticalJacobian && o.controlMethod ≠ .algebraic)
      rw [← e, hc] at this
      simpa only [List.append_assoc] using this

theorem direct_ok {S S' : Sympy} (jac shift norm : Bool) (p : Prob) (hm : Made r shift p) {steps : List Step}
    (hs : directSteps jac shift norm p = .ok steps) : StepsOk r S S' steps p := by
  rw [directSteps] at hs
  cases hi : ineqSteps (p.initial ++ p.path ++ p.terminal) with
  | error e => rw [hi] at hs; cases hs
  | ok ineq =>
    rw [hi] at hs
    cases hs
    have h := head_ok (S := S) (S' := S') shift (decide (p.switches.length > 0)) ineq (ineqSteps_kinds hi) p hm
    have := StepsOk.append (b := (if norm then [.normalizeTime] else []) ++ (if jac then [.jacobians] else [])) h.1 fun q hq => by
      have hg := h.2 q hq
      have h2 : ∀ q, StepsOk r S S' (if jac then [.jacobians] else []) q := by
        intro q
        cases jac with
        | false => trivial
        | true => exact ⟨jacobians_ren hg.inj q, fun _ _ => trivial⟩
      cases norm with
      | false => exact h2 q
      | true => exact ⟨normalizeTime_ren q hg.tau hg.delta, fun q' _ => h2 q'⟩
    simpa only [List.append_assoc, decide_eq_true_eq] using this

end Beluga.Rename
