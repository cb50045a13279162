import Verif.Symbolic.OneSided

/-!
# One-sided bounds of controls with the method 'epstrig' (C65)

`make_indirect_method` and `make_direct_method` run `EpsTrig` once for every two-sided constraint with this method
(mapping_functions.py:812-822, 873-884), but `EpsTrig` takes the first path constraint with this method, whether it has
both bounds or not (mapping_functions.py:193-199).
-/

namespace Beluga.Sym

open Expr

/-- The path constraints with the method 'epstrig' in their order: has it both bounds? -/
def trigSides (p : Prob) : List Bool := (p.path.filter fun c => decide (c.method = .epstrig)).map Con.twoSided

theorem trigSides_of_map {p p' : Prob} {f : Con → Con} (hf : ∀ c, (f c).method = c.method ∧ (f c).twoSided = c.twoSided)
    (h : p'.path = p.path.map f) : trigSides p' = trigSides p := by
  rw [trigSides, trigSides, h, List.filter_map, List.map_map]
  have e1 : (fun c => decide (c.method = Meth.epstrig)) ∘ f = fun c => decide (c.method = .epstrig) := by
    funext c
    simp only [Function.comp, (hf c).1]
  rw [e1]
  exact List.map_congr_left fun c _ => (hf c).2

theorem trigSides_subsAll (x : Name) (e : Expr) (p : Prob) : trigSides (p.subsAll x e) = trigSides p :=
  trigSides_of_map (f := Con.subs x e) (fun c => ⟨rfl, twoSided_subs x e c⟩) rfl

theorem trigSides_elimLoop (p : Prob) : ∀ k, trigSides (elimLoop p k) = trigSides p
  | 0 => rfl
  | k + 1 => by
    rw [elimLoop]
    split
    · rw [trigSides_subsAll]
      exact trigSides_elimLoop p k
    · exact trigSides_elimLoop p k

theorem trigSides_preprocess {p p1 : Prob} (h : preprocess p = .ok p1) : trigSides p1 = trigSides p := by
  rw [preprocess, Prob.sympify] at h
  split at h
  · cases h
  · simp only [bind, Except.bind, applyQuantities] at h
    simp only [Bool.not_true, Bool.false_eq_true, if_false] at h
    cases h
    exact trigSides_elimLoop _ _

/-- Removing the first element with a property. -/
theorem filter_eraseIdx_find {α : Type} (q : α → Bool) : ∀ (l : List α) (i : Nat), l.findIdx? q = some i →
    ∃ c, l[i]? = some c ∧ l.filter q = c :: (l.eraseIdx i).filter q
  | [], i, h => by simp at h
  | a :: l, i, h => by
    rw [List.findIdx?_cons] at h
    split at h
    · next ha =>
      cases h
      exact ⟨a, rfl, by simp [ha]⟩
    · next ha =>
      cases hl : l.findIdx? q with
      | none => rw [hl] at h; cases h
      | some j =>
        rw [hl] at h
        cases h
        obtain ⟨c, h1, h2⟩ := filter_eraseIdx_find q l j hl
        exact ⟨c, by simpa using h1, by simp [ha, h2]⟩

/-- Removing an element without the property. -/
theorem filter_eraseIdx_other {α : Type} (q : α → Bool) : ∀ (l : List α) (i : Nat) (c : α), l[i]? = some c → q c = false →
    (l.eraseIdx i).filter q = l.filter q
  | [], _, _, h, _ => by simp at h
  | a :: l, 0, c, h, hc => by
    simp at h
    subst h
    simp [hc]
  | a :: l, i + 1, c, h, hc => by
    simp only [List.eraseIdx_cons_succ, List.filter_cons]
    rw [filter_eraseIdx_other q l i c (by simpa using h) hc]

theorem trigSides_epsTrig {p p1 : Prob} (h : epsTrig p = .ok p1) : trigSides p = true :: trigSides p1 := by
  rw [epsTrig] at h
  split at h
  · cases h
  · cases hf : p.path.findIdx? fun c => decide (c.method = Meth.epstrig) with
    | none => rw [hf] at h; cases h
    | some i =>
      obtain ⟨c, hc, hfil⟩ := filter_eraseIdx_find _ _ _ hf
      simp only [hf, hc] at h
      cases hk : p.controls.findIdx? fun u => decide (c.expr = sym u) with
      | none => rw [hk] at h; cases h
      | some k =>
        simp only [hk] at h
        split at h
        · next u a lo hi _ _ hlo hhi =>
          cases h
          have e : trigSides { (Prob.subsAll u ((hi - lo) / 2 * fn .sin (sym ("_" ++ u ++ "_trig")) + (hi + lo) / 2) { p with
              path := p.path.eraseIdx i
              controls := p.controls.set k ("_" ++ u ++ "_trig")
              costPath := p.costPath + (-a) * fn .cos (sym ("_" ++ u ++ "_trig")) }) with chain := [] } =
              ((p.path.eraseIdx i).filter fun c => decide (c.method = .epstrig)).map Con.twoSided := trigSides_subsAll u _ _
          rw [trigSides, hfil, List.map_cons]
          refine congrArg₂ _ ?_ e.symm
          simp [Con.twoSided, hlo, hhi]
        · cases h

theorem trigSides_utm {p p1 : Prob} (h : utm p = .ok p1) : trigSides p1 = trigSides p := by
  rw [utm] at h
  split at h
  · cases h
  · cases hf : utmFind p with
    | none => rw [hf] at h; cases h
    | some li =>
      obtain ⟨loc, i⟩ := li
      simp only [hf] at h
      cases hc : (p.conList loc)[i]? with
      | none => rw [hc] at h; cases h
      | some c =>
        simp only [hc] at h
        split at h
        · split at h
          · cases h
            by_cases hl : loc = 1
            · subst hl
              have hi : p.path.findIdx? isUtm = some i := by
                rw [utmFind] at hf
                cases h0 : p.initial.findIdx? isUtm with
                | some j => rw [h0] at hf; cases hf
                | none =>
                  rw [h0] at hf
                  cases h1 : p.path.findIdx? isUtm with
                  | some j => rw [h1] at hf; cases hf; rfl
                  | none =>
                    rw [h1] at hf
                    cases h2 : p.terminal.findIdx? isUtm with
                    | some j => rw [h2] at hf; cases hf
                    | none => rw [h2] at hf; cases hf
              obtain ⟨hlt, hu, -⟩ := List.findIdx?_eq_some_iff_getElem.1 hi
              change ((p.path.eraseIdx i).filter _).map Con.twoSided = _
              rw [trigSides, filter_eraseIdx_other _ p.path i p.path[i] (List.getElem?_eq_getElem hlt)]
              simp only [isUtm, Bool.and_eq_true, decide_eq_true_eq] at hu
              simp [hu.1]
            · simp only [if_neg hl]
              rfl
          · cases h
        · cases h

/-- A step of the first part of the pipeline. -/
theorem trigSides_step {S : Sympy} {p p1 : Prob} {st : Step} (hst : st = .momentumShift ∨ st = .epsTrig ∨ st = .utm)
    (h : st.run S p = .ok p1) :
    trigSides p = List.replicate (if st = .epsTrig then 1 else 0) true ++ trigSides p1 := by
  rcases hst with rfl | rfl | rfl
  · change momentumShift p = .ok p1 at h
    rw [momentumShift] at h
    split at h
    · cases h
    · cases h
      rfl
  · exact trigSides_epsTrig h
  · exact (trigSides_utm h).symm

theorem trigSides_runSteps {S : Sympy} : ∀ {steps : List Step} {p p1 : Prob},
    (∀ st ∈ steps, st = .momentumShift ∨ st = .epsTrig ∨ st = .utm) → runSteps S steps p = .ok p1 →
    trigSides p = List.replicate (steps.filter fun st => decide (st = .epsTrig)).length true ++ trigSides p1
  | [], p, p1, _, h => by cases h; rfl
  | st :: steps, p, p1, hst, h => by
    rw [runSteps, List.foldlM_cons] at h
    cases h1 : st.run S p with
    | error e => rw [h1] at h; cases h
    | ok p2 =>
      rw [h1] at h
      rw [trigSides_step (hst st (by simp)) h1, trigSides_runSteps (fun s hs => hst s (by simp [hs])) h, ← List.append_assoc,
        List.replicate_append_replicate, List.filter_cons]
      congr 2
      by_cases e : st = .epsTrig
      · simp [e, Nat.add_comm]
      · simp [e]

/-- One `EpsTrig` for every two-sided constraint with this method. -/
theorem ineqSteps_trig : ∀ {cons : List Con} {steps : List Step}, ineqSteps cons = .ok steps →
    (∀ st ∈ steps, st = .momentumShift ∨ st = .epsTrig ∨ st = .utm) ∧
    (steps.filter fun st => decide (st = .epsTrig)).length =
      (((cons.filter fun c => decide (c.method = .epstrig)).map Con.twoSided).filter id).length
  | [], steps, h => by cases h; simp
  | c :: cons, steps, h => by
    rw [ineqSteps, List.filter_cons] at h
    split at h
    · next hc =>
      rw [List.mapM_cons] at h
      cases hm : c.method with
      | other => rw [hm] at h; cases h
      | epstrig =>
        simp only [hm] at h
        cases hr : ineqSteps cons with
        | error e =>
          rw [ineqSteps] at hr
          rw [hr] at h; cases h
        | ok rest =>
          obtain ⟨k1, k2⟩ := ineqSteps_trig hr
          rw [ineqSteps] at hr
          rw [hr] at h
          cases h
          refine ⟨?_, ?_⟩
          · intro st hst
            rcases List.mem_cons.1 hst with rfl | hst
            · simp
            · exact k1 st hst
          · simp [hm, hc, k2]
      | utm =>
        simp only [hm] at h
        cases hr : ineqSteps cons with
        | error e =>
          rw [ineqSteps] at hr
          rw [hr] at h; cases h
        | ok rest =>
          obtain ⟨k1, k2⟩ := ineqSteps_trig hr
          rw [ineqSteps] at hr
          rw [hr] at h
          cases h
          refine ⟨?_, ?_⟩
          · intro st hst
            rcases List.mem_cons.1 hst with rfl | hst
            · simp
            · exact k1 st hst
          · simp [hm, k2]
    · next hc =>
      obtain ⟨k1, k2⟩ := ineqSteps_trig (cons := cons) h
      refine ⟨k1, ?_⟩
      rw [k2]
      by_cases hm : c.method = .epstrig <;> simp [hm, hc]

/-- After the inequalities have been handled, no two-sided constraint with 'epstrig' is left on the path. -/
theorem trigSides_left {S : Sympy} {p p2 : Prob} {pre ineq : List Step} (hpre : pre = [] ∨ pre = [.momentumShift])
    (hi : ineqSteps (p.initial ++ p.path ++ p.terminal) = .ok ineq) (h : runSteps S (pre ++ ineq) p = .ok p2) :
    ∃ k, trigSides p = List.replicate k true ++ trigSides p2 ∧ ∀ b ∈ trigSides p2, b = false := by
  obtain ⟨k1, k2⟩ := ineqSteps_trig hi
  have hall : ∀ st ∈ pre ++ ineq, st = .momentumShift ∨ st = .epsTrig ∨ st = .utm := by
    intro st hst
    rcases List.mem_append.1 hst with hst | hst
    · rcases hpre with rfl | rfl
      · cases hst
      · exact Or.inl (by simpa using hst)
    · exact k1 st hst
  have key := trigSides_runSteps hall h
  have hcount : (pre.filter fun st => decide (st = .epsTrig)).length = 0 := by rcases hpre with rfl | rfl <;> rfl
  rw [List.filter_append, List.length_append, hcount, Nat.zero_add] at key
  refine ⟨_, key, ?_⟩
  have hge : ((trigSides p).filter id).length ≤ (ineq.filter fun st => decide (st = .epsTrig)).length := by
    rw [k2, trigSides]
    simp only [List.filter_append, List.map_append, List.length_append]
    omega
  rw [key, List.filter_append, List.length_append] at hge
  have hrep : ∀ n, ((List.replicate n true).filter id).length = n := by
    intro n
    induction n with
    | zero => rfl
    | succ n ih => simp [List.replicate_succ]
  rw [hrep] at hge
  have h0 : ((trigSides p2).filter id).length = 0 := by omega
  have h0 := List.eq_nil_of_length_eq_zero h0
  intro b hb
  have := List.filter_eq_nil_iff.1 h0 b hb
  simpa using this

/-- Violation: a control bounded from one side only with the method 'epstrig', before a control bounded from both sides
with this method: no boundary value problem and no direct problem is ever made, whatever the options. -/
theorem C65_violated_order (S : Sympy) {p : Prob} {A B C : List Con} {c d : Con} (hpath : p.path = A ++ c :: (B ++ d :: C))
    (hc : c.method = .epstrig) (hc1 : c.twoSided = false) (hd : d.method = .epstrig) (hd2 : d.twoSided = true) :
    (∀ o p', indirect S o p ≠ .ok p') ∧ ∀ jac shift norm p',
      (preprocess p >>= fun q => directSteps jac shift norm q >>= fun st => runSteps S st q) ≠ .ok p' := by
  have no : ∀ {p1 p2 : Prob} {pre ineq : List Step}, preprocess p = .ok p1 → (pre = [] ∨ pre = [.momentumShift]) →
      ineqSteps (p1.initial ++ p1.path ++ p1.terminal) = .ok ineq → runSteps S (pre ++ ineq) p1 = .ok p2 → False := by
    intro p1 p2 pre ineq h1 hpre hi hr
    obtain ⟨k, hk, hleft⟩ := trigSides_left hpre hi hr
    rw [trigSides_preprocess h1] at hk
    have e : trigSides p = (A.filter fun c => decide (c.method = .epstrig)).map Con.twoSided ++
        false :: ((B.filter fun c => decide (c.method = .epstrig)).map Con.twoSided ++
          true :: (C.filter fun c => decide (c.method = .epstrig)).map Con.twoSided) := by
      simp [trigSides, hpath, List.filter_append, hc, hc1, hd, hd2]
    rw [e] at hk
    generalize (A.filter fun c => decide (c.method = .epstrig)).map Con.twoSided = a at hk
    generalize (B.filter fun c => decide (c.method = .epstrig)).map Con.twoSided = b at hk
    generalize (C.filter fun c => decide (c.method = .epstrig)).map Con.twoSided = g at hk
    have hlen : a.length ≥ k := by
      by_contra hlt
      have h1 := congrArg (fun l => l[a.length]?) hk
      simp only [List.getElem?_append_right (le_refl _), Nat.sub_self, List.getElem?_cons_zero] at h1
      rw [List.getElem?_append_left (by rw [List.length_replicate]; omega), List.getElem?_replicate] at h1
      rw [if_pos (by omega)] at h1
      cases h1
    have hd := congrArg (List.drop k) hk
    rw [List.drop_append_of_le_length hlen, List.drop_left' (List.length_replicate ..)] at hd
    have := hleft true (by rw [← hd]; simp)
    cases this
  constructor
  · intro o p' h
    rw [indirect] at h
    cases h1 : preprocess p with
    | error e => rw [h1] at h; cases h
    | ok p1 =>
      rw [h1] at h
      change (indirectSteps o p1 >>= fun steps => runSteps S steps p1) = .ok p' at h
      rw [indirectSteps] at h
      cases hi : ineqSteps (p1.initial ++ p1.path ++ p1.terminal) with
      | error e => rw [hi] at h; cases h
      | ok ineq =>
        rw [hi] at h
        have hsplit : ∃ rest, runSteps S (((if o.momentumShift then [Step.momentumShift] else []) ++ ineq) ++ rest) p1 = .ok p' := by
          cases hm : o.controlMethod with
          | other =>
            rw [hm] at h
            cases h
          | algebraic =>
            rw [hm] at h
            simp only [bind, Except.bind, List.append_assoc] at h
            exact ⟨_, by rw [List.append_assoc]; exact h⟩
          | differential =>
            rw [hm] at h
            simp only [bind, Except.bind, List.append_assoc] at h
            exact ⟨_, by rw [List.append_assoc]; exact h⟩
        obtain ⟨rest, h⟩ := hsplit
        rw [runSteps, List.foldlM_append] at h
        cases hr : (((if o.momentumShift = true then [Step.momentumShift] else []) ++ ineq).foldlM
            (fun q st => Step.run S st q) p1 : Py Prob) with
        | error e => rw [hr] at h; cases h
        | ok p2 => exact no h1 (by split <;> simp) hi hr
  · intro jac shift norm p' h
    cases h1 : preprocess p with
    | error e => rw [h1] at h; cases h
    | ok p1 =>
      rw [h1] at h
      change (directSteps jac shift norm p1 >>= fun steps => runSteps S steps p1) = .ok p' at h
      rw [directSteps] at h
      cases hi : ineqSteps (p1.initial ++ p1.path ++ p1.terminal) with
      | error e => rw [hi] at h; cases h
      | ok ineq =>
        rw [hi] at h
        simp only [bind, Except.bind, List.append_assoc] at h
        rw [← List.append_assoc (if shift = true then [Step.momentumShift] else []) ineq, runSteps, List.foldlM_append] at h
        cases hr : (((if shift = true then [Step.momentumShift] else []) ++ ineq).foldlM
            (fun q st => Step.run S st q) p1 : Py Prob) with
        | error e => rw [hr] at h; cases h
        | ok p2 => exact no h1 (by split <;> simp) hi hr

/-- Two controls, the first bounded from above only. -/
def trigOrderEx (swap : Bool) : Prob := {
  ind := "t"
  states := [⟨"x", sym "u" + sym "v"⟩]
  controls := ["u", "v"]
  constants := ["eps"]
  costPath := 1 + sym "u" * sym "u"
  initial := [{ expr := sym "x" }, { expr := sym "t" }]
  path := (if swap then List.reverse else id) [{ expr := sym "u", upper := some 1, activator := some (sym "eps"), method := .epstrig },
    { expr := sym "v", lower := some 0, upper := some 1, activator := some (sym "eps"), method := .epstrig }]
  terminal := [{ expr := sym "x" - 1 }] }

/-- With the one-sided bound first nothing is made; the other way round the one-sided bound is dropped in silence. -/
example : (∀ S o p', indirect S o (trigOrderEx false) ≠ .ok p') ∧
    (match indirect { oneSidedSympy with solve := fun _ _ => [[("u", 0), ("_v_trig", 0)]] } { controlMethod := .algebraic } (trigOrderEx true) with
      | .ok p => decide (p.controls = ["u", "_v_trig"])
      | .error _ => false) = true :=
  ⟨fun S => (C65_violated_order S (A := []) (B := []) (C := []) rfl rfl rfl rfl rfl).1, by decide +kernel⟩

end Beluga.Sym
