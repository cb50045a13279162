import Verif.Symbolic.Eliminate
import Verif.Symbolic.Barrier

/-! # The inequality functors, step by step -/

namespace Beluga.Sym

open Expr

set_option linter.unusedSectionVars false

theorem findIdx?_some {α : Type _} {q : α → Bool} {l : List α} {i : Nat} (h : l.findIdx? q = some i) :
    ∃ a, l[i]? = some a ∧ q a = true := by
  rw [List.findIdx?_eq_some_iff_getElem] at h
  obtain ⟨hi, h1, -⟩ := h
  exact ⟨l[i], List.getElem?_eq_getElem hi, h1⟩

theorem filter_eraseIdx {α : Type _} (q : α → Bool) : ∀ (l : List α) (i : Nat) (a : α), l[i]? = some a → q a = false →
    (l.eraseIdx i).filter q = l.filter q
  | x :: l, 0, a, h, hq => by
    simp only [List.getElem?_cons_zero, Option.some.injEq] at h
    subst h
    simp [hq]
  | x :: l, i + 1, a, h, hq => by
    have := filter_eraseIdx q l i a (by simpa using h) hq
    simp [List.filter_cons, this]

theorem sum_eraseIdx {α : Type _} (q : α → Bool) (w : α → ℝ) : ∀ (l : List α) (i : Nat) (a : α), l[i]? = some a →
    q a = true → ((l.filter q).map w).sum = w a + (((l.eraseIdx i).filter q).map w).sum
  | x :: l, 0, a, h, hq => by
    simp only [List.getElem?_cons_zero, Option.some.injEq] at h
    subst h
    simp [hq]
  | x :: l, i + 1, a, h, hq => by
    have := sum_eraseIdx q w l i a (by simpa using h) hq
    simp only [List.eraseIdx_cons_succ, List.filter_cons]
    split
    · simp only [List.map_cons, List.sum_cons, this]; ring
    · exact this

theorem countP_eraseIdx {α : Type _} (q : α → Bool) : ∀ (l : List α) (i : Nat) (a : α), l[i]? = some a →
    l.countP q = (l.eraseIdx i).countP q + (if q a then 1 else 0)
  | x :: l, 0, a, h => by
    simp only [List.getElem?_cons_zero, Option.some.injEq] at h
    subst h
    simp [List.countP_cons]
  | x :: l, i + 1, a, h => by
    have := countP_eraseIdx q l i a (by simpa using h)
    simp only [List.eraseIdx_cons_succ, List.countP_cons, this]
    omega

/-- Rewriting a constraint. -/
def Con.rw (f : Expr → Expr) (c : Con) : Con := ⟨f c.expr, c.lower.map f, c.upper.map f, c.activator, c.method⟩

theorem Con.subs_eq (x : Name) (e : Expr) : Con.subs x e = Con.rw (Expr.subs x e) := rfl

theorem twoSided_rw (f : Expr → Expr) (c : Con) : (c.rw f).twoSided = c.twoSided := by
  simp [Con.twoSided, Con.rw]

theorem filter_rw (f : Expr → Expr) (l : List Con) :
    (l.map (Con.rw f)).filter (fun c => !c.twoSided) = (l.filter fun c => !c.twoSided).map (Con.rw f) := by
  rw [List.filter_map]
  congr 1
  apply List.filter_congr
  intro c _
  simp [twoSided_rw]

theorem bare_mapEqs (f : Expr → Expr) (p : Prob) : (p.mapEqs f).bare = { p.bare.mapEqs f with
    costInitial := 0, costPath := 0, costTerminal := 0 } := by
  have h : ∀ l : List Con, (l.map fun c => (⟨f c.expr, c.lower.map f, c.upper.map f, c.activator, c.method⟩ : Con)).filter
      (fun c => !c.twoSided) = (l.filter fun c => !c.twoSided).map fun c =>
        ⟨f c.expr, c.lower.map f, c.upper.map f, c.activator, c.method⟩ := filter_rw f
  cases p
  simp only [Prob.bare, Prob.mapEqs, h]

theorem bare_subsAll (x : Name) (e : Expr) (p : Prob) : (p.subsAll x e).bare = (p.mapEqs (Expr.subs x e)).bare := by
  cases p; rfl

/-- How many two-sided constraints of a given method there are. -/
def countM (m : Meth) (cons : List Con) : Nat := cons.countP fun c => c.method = m && c.twoSided

theorem countM_rw (m : Meth) (f : Expr → Expr) (l : List Con) : countM m (l.map (Con.rw f)) = countM m l := by
  simp only [countM, List.countP_map]
  congr 1
  funext c
  have : (c.rw f).method = c.method := rfl
  simp only [Function.comp_apply, twoSided_rw, this]

/-- Number of constraints left to the functors 'utm' and 'epstrig'. -/
def leftUtm (p : Prob) : Nat := countM .utm p.initial + countM .utm p.path + countM .utm p.terminal

def leftEps (p : Prob) : Nat := countM .epstrig p.path

/-- The invariant of the regularisation: `p` is reached from `p0`. -/
structure RegInv (p0 p : Prob) (f : Expr → Expr) : Prop where
  ok : Regularisable p0.controls p
  rest : p.bare = (p0.mapEqs f).bare
  meaning : ∀ U ρ, TrigEnv p0 U ρ → ∀ e, eval (real U) ρ (f e) = eval (real U) ρ e
  env : ∀ U ρ, TrigEnv p0 U ρ → TrigEnv p U ρ
  cost : ∀ U ρ, TrigEnv p0 U ρ → ∀ loc, eval (real U) ρ (p.costAt loc) + penalties utmValue U ρ (p.consAt loc) =
    eval (real U) ρ (p0.costAt loc) + penalties utmValue U ρ (p0.consAt loc)
  gone : ∀ e, ∀ s ∈ (f e).free, s ∈ epsControls p0.path → s ∈ epsControls p.path
  sub : ∀ u ∈ epsControls p.path, u ∈ epsControls p0.path
  controls : p.controls = p0.controls.map fun u =>
    if u ∈ epsControls p0.path ∧ u ∉ epsControls p.path then trigName u else u
  fixes : ∀ e, (∀ s ∈ e.free, s ∉ epsControls p0.path) → f e = e
  chain : ∃ tags, p.chain = p0.chain ++ tags ∧
    tags.length + (leftUtm p + leftEps p) = leftUtm p0 + leftEps p0

theorem RegInv.refl {p : Prob} (h : Regularisable p.controls p) : RegInv p p id := by
  refine ⟨h, by rw [mapEqs_id], fun _ _ _ _ => rfl, fun _ _ h => h, fun _ _ _ _ => rfl, fun _ _ _ h => h,
    fun _ h => h, ?_, fun _ _ => rfl, ⟨[], by simp, by simp⟩⟩
  have : ∀ u, ¬ (u ∈ epsControls p.path ∧ u ∉ epsControls p.path) := fun u h => h.2 h.1
  simp [this]

/-! ### UTM -/

theorem penalties_split (B : ℝ → ℝ → ℝ → ℝ → ℝ) (U : Name → Nat → ℝ → ℝ) (ρ : Name → ℝ) {l : List Con} {i : Nat} {c : Con}
    (h : l[i]? = some c) (ht : c.twoSided = true) :
    penalties B U ρ l = penalty B U ρ c + penalties B U ρ (l.eraseIdx i) :=
  sum_eraseIdx _ _ l i c h ht

theorem epsControls_eraseIdx_utm : ∀ (l : List Con) (i : Nat) (c : Con), l[i]? = some c → c.method = .utm →
    epsControls (l.eraseIdx i) = epsControls l
  | x :: l, 0, c, h, hm => by
    simp only [List.getElem?_cons_zero, Option.some.injEq] at h
    subst h
    simp [epsControls, hm]
  | x :: l, i + 1, c, h, hm => by
    have := epsControls_eraseIdx_utm l i c (by simpa using h) hm
    simp only [epsControls] at this
    simp [epsControls, List.filterMap_cons, this]

theorem utmFind_some {p : Prob} {loc i : Nat} (h : utmFind p = some (loc, i)) :
    loc ≤ 2 ∧ ∃ c, (p.consAt loc)[i]? = some c ∧ isUtm c = true := by
  rw [utmFind] at h
  cases h0 : p.initial.findIdx? isUtm with
  | some j =>
    rw [h0] at h; simp only [Option.some.injEq, Prod.mk.injEq] at h
    obtain ⟨rfl, rfl⟩ := h
    exact ⟨by omega, findIdx?_some h0⟩
  | none =>
    rw [h0] at h; simp only at h
    cases h1 : p.path.findIdx? isUtm with
    | some j =>
      rw [h1] at h; simp only [Option.some.injEq, Prod.mk.injEq] at h
      obtain ⟨rfl, rfl⟩ := h
      exact ⟨by omega, findIdx?_some h1⟩
    | none =>
      rw [h1] at h; simp only at h
      cases h2 : p.terminal.findIdx? isUtm with
      | some j =>
        rw [h2] at h; simp only [Option.some.injEq, Prod.mk.injEq] at h
        obtain ⟨rfl, rfl⟩ := h
        exact ⟨by omega, findIdx?_some h2⟩
      | none => rw [h2] at h; cases h

theorem countM_eq_zero {m : Meth} {l : List Con} (h : ∀ c ∈ l, ¬ (c.method = m ∧ c.twoSided = true)) :
    countM m l = 0 := by
  rw [countM, List.countP_eq_zero]
  intro c hc
  simpa using h c hc

theorem utmFind_none {p : Prob} (h : utmFind p = none) : leftUtm p = 0 := by
  rw [utmFind] at h
  cases h0 : p.initial.findIdx? isUtm with
  | some j => rw [h0] at h; cases h
  | none =>
    rw [h0] at h; simp only at h
    cases h1 : p.path.findIdx? isUtm with
    | some j => rw [h1] at h; cases h
    | none =>
      rw [h1] at h; simp only at h
      cases h2 : p.terminal.findIdx? isUtm with
      | some j => rw [h2] at h; cases h
      | none =>
        rw [List.findIdx?_eq_none_iff] at h0 h1 h2
        have key : ∀ l : List Con, (∀ c ∈ l, isUtm c = false) → countM .utm l = 0 := by
          intro l hl
          apply countM_eq_zero
          intro c hc hh
          have := hl c hc
          simp [isUtm, hh.1, hh.2] at this
        rw [leftUtm, key _ (by simpa using h0), key _ (by simpa using h1), key _ (by simpa using h2)]

theorem isUtm_iff {c : Con} : isUtm c = true ↔ c.method = .utm ∧ c.twoSided = true := by
  simp [isUtm]

theorem twoSided_iff {c : Con} : c.twoSided = true ↔ ∃ lo hi, c.lower = some lo ∧ c.upper = some hi := by
  rw [Con.twoSided]
  cases c.lower <;> cases c.upper <;> simp

/-- What one UTM functor does. -/
structure UtmStep (p p' : Prob) : Prop where
  shape : ∃ loc i c k a lo hi, loc ≤ 2 ∧ (p.consAt loc)[i]? = some c ∧ c.method = .utm ∧ c.activator = some a ∧
    k ∈ p.constants ∧ a = sym k ∧
    c.lower = some lo ∧ c.upper = some hi ∧ p' = { p with
      costInitial := if loc = 0 then p.costInitial + utmTerm a c.expr lo hi else p.costInitial
      costPath := if loc = 1 then p.costPath + utmTerm a c.expr lo hi else p.costPath
      costTerminal := if loc = 2 then p.costTerminal + utmTerm a c.expr lo hi else p.costTerminal
      initial := if loc = 0 then p.initial.eraseIdx i else p.initial
      path := if loc = 1 then p.path.eraseIdx i else p.path
      terminal := if loc = 2 then p.terminal.eraseIdx i else p.terminal
      chain := p.chain ++ [.identity] }

theorem conList_eq (p : Prob) (loc : Nat) : p.conList loc = p.consAt loc := by
  rcases loc with _ | _ | _ <;> rfl

theorem utm_inv {p p' : Prob} (h : utm p = .ok p') : UtmStep p p' := by
  rw [utm] at h
  split at h
  · cases h
  · cases hf : utmFind p with
    | none => rw [hf] at h; cases h
    | some li =>
      obtain ⟨loc, i⟩ := li
      rw [hf] at h
      simp only [conList_eq] at h
      obtain ⟨hl, c, hc, hu⟩ := utmFind_some hf
      rw [hc] at h
      simp only at h
      rw [isUtm_iff] at hu
      obtain ⟨lo, hi, e1, e2⟩ := twoSided_iff.1 hu.2
      rw [e1, e2] at h
      cases ea : c.activator with
      | none => rw [ea] at h; cases h
      | some a =>
        rw [ea] at h
        simp only at h
        split at h
        · next hk =>
          obtain ⟨k, hk1, hk2⟩ := List.any_eq_true.1 hk
          cases h
          exact ⟨loc, i, c, k, a, lo, hi, hl, hc, hu.1, ea, hk1, by simpa using hk2, e1, e2, rfl⟩
        · cases h

theorem utm_ok {p : Prob} {C : List Name} (hr : Regularisable C p) (hn : 0 < leftUtm p) : ∃ p', utm p = .ok p' := by
  cases hf : utmFind p with
  | none => rw [utmFind_none hf] at hn; omega
  | some li =>
    obtain ⟨loc, i⟩ := li
    obtain ⟨hl, c, hc, hu⟩ := utmFind_some hf
    rw [isUtm_iff] at hu
    obtain ⟨lo, hi, e1, e2⟩ := twoSided_iff.1 hu.2
    have hmem : c ∈ p.initial ++ p.path ++ p.terminal := by
      have := List.mem_of_getElem? hc
      rcases loc with _ | _ | _ <;> simp only [Prob.consAt] at this <;> simp [this]
    obtain ⟨k, hk, ea⟩ := hr.act c hmem hu.2 hu.1
    cases hp : utm p with
    | ok p' => exact ⟨p', rfl⟩
    | error e =>
      exfalso
      rw [utm, if_neg (by simp [hr.sympified]), hf] at hp
      simp only [conList_eq] at hp
      rw [hc] at hp
      simp only [ea, e1, e2] at hp
      rw [if_pos (List.any_eq_true.2 ⟨k, hk, by simp⟩)] at hp
      cases hp

theorem penalty_utm {U : Name → Nat → ℝ → ℝ} {ρ : Name → ℝ} {c : Con} {a lo hi : Expr} (hm : c.method = .utm)
    (ha : c.activator = some a) (hl : c.lower = some lo) (hh : c.upper = some hi) :
    penalty utmValue U ρ c = eval (real U) ρ (utmTerm a c.expr lo hi) := by
  rw [eval_utmTerm]
  cases c
  simp only at hm ha hl hh
  subst hm ha hl hh
  rfl

theorem mem_of_mem_eraseIdx' {α : Type _} {l : List α} {i : Nat} {a : α} (h : a ∈ l.eraseIdx i) : a ∈ l :=
  List.mem_of_mem_eraseIdx h

theorem regInv_utm {p0 p p' : Prob} {f : Expr → Expr} (h : RegInv p0 p f) (hu : utm p = .ok p') :
    RegInv p0 p' f ∧ leftUtm p = leftUtm p' + 1 ∧ leftEps p' = leftEps p := by
  obtain ⟨loc, i, c, k, a, lo, hi, hl, hc, hm, ha, hk, hak, hlo, hhi, rfl⟩ := utm_inv hu
  have hts : c.twoSided = true := twoSided_iff.2 ⟨lo, hi, hlo, hhi⟩
  have hcount : ∀ l : List Con, l[i]? = some c →
      countM .utm l = countM .utm (l.eraseIdx i) + 1 ∧ countM .epstrig l = countM .epstrig (l.eraseIdx i) := by
    intro l h
    have h1 := countP_eraseIdx (fun c : Con => decide (c.method = .utm) && c.twoSided) l i c h
    have h2 := countP_eraseIdx (fun c : Con => decide (c.method = .epstrig) && c.twoSided) l i c h
    simp only [hm, hts] at h1 h2
    exact ⟨by simpa [countM] using h1, by simpa [countM] using h2⟩
  have hleft : leftUtm p = leftUtm { p with
      costInitial := if loc = 0 then p.costInitial + utmTerm a c.expr lo hi else p.costInitial
      costPath := if loc = 1 then p.costPath + utmTerm a c.expr lo hi else p.costPath
      costTerminal := if loc = 2 then p.costTerminal + utmTerm a c.expr lo hi else p.costTerminal
      initial := if loc = 0 then p.initial.eraseIdx i else p.initial
      path := if loc = 1 then p.path.eraseIdx i else p.path
      terminal := if loc = 2 then p.terminal.eraseIdx i else p.terminal
      chain := p.chain ++ [.identity] } + 1 ∧ leftEps { p with
      costInitial := if loc = 0 then p.costInitial + utmTerm a c.expr lo hi else p.costInitial
      costPath := if loc = 1 then p.costPath + utmTerm a c.expr lo hi else p.costPath
      costTerminal := if loc = 2 then p.costTerminal + utmTerm a c.expr lo hi else p.costTerminal
      initial := if loc = 0 then p.initial.eraseIdx i else p.initial
      path := if loc = 1 then p.path.eraseIdx i else p.path
      terminal := if loc = 2 then p.terminal.eraseIdx i else p.terminal
      chain := p.chain ++ [.identity] } = leftEps p := by
    rcases loc with _ | _ | _ | loc
    · have := hcount _ hc
      simp only [Prob.consAt] at this
      simp [leftUtm, leftEps, this]; omega
    · have := hcount _ hc
      simp only [Prob.consAt] at this
      simp [leftUtm, leftEps, this]; omega
    · have := hcount _ hc
      simp only [Prob.consAt] at this
      simp [leftUtm, leftEps, this]; omega
    · omega
  refine ⟨⟨?_, ?_, h.meaning, ?_, ?_, ?_, ?_, ?_, h.fixes, ?_⟩, hleft⟩
  · have m0 : ∀ x, x ∈ (if loc = 0 then p.initial.eraseIdx i else p.initial) → x ∈ p.initial := by
      intro x hx; split at hx
      · exact List.mem_of_mem_eraseIdx hx
      · exact hx
    have m1 : ∀ x, x ∈ (if loc = 1 then p.path.eraseIdx i else p.path) → x ∈ p.path := by
      intro x hx; split at hx
      · exact List.mem_of_mem_eraseIdx hx
      · exact hx
    have m2 : ∀ x, x ∈ (if loc = 2 then p.terminal.eraseIdx i else p.terminal) → x ∈ p.terminal := by
      intro x hx; split at hx
      · exact List.mem_of_mem_eraseIdx hx
      · exact hx
    refine ⟨h.ok.sympified, ?_, ?_, ?_, ?_, ?_, h.ok.fresh⟩
    · intro c hc
      apply h.ok.ends c
      rw [List.mem_append] at hc ⊢
      exact hc.imp (m0 c) (m2 c)
    · intro c hc; exact h.ok.known c (m1 c hc)
    · intro c hc
      apply h.ok.act c
      rw [List.mem_append, List.mem_append] at hc ⊢
      exact hc.imp (Or.imp (m0 c) (m1 c)) (m2 c)
    · intro c hc; exact h.ok.eps c (m1 c hc)
    · simp only
      split
      · next e => subst e; rw [epsControls_eraseIdx_utm p.path _ _ hc hm]; exact h.ok.once
      · exact h.ok.once
  · rw [← h.rest]
    simp only [Prob.bare]
    have hf : ∀ l : List Con, l[i]? = some c →
        (l.eraseIdx i).filter (fun c => !c.twoSided) = l.filter fun c => !c.twoSided :=
      fun l hl => filter_eraseIdx _ l i c hl (by simp [hts])
    rcases loc with _ | _ | _ | loc
    · simp only [Prob.consAt] at hc; simp [hf _ hc]
    · simp only [Prob.consAt] at hc; simp [hf _ hc]
    · simp only [Prob.consAt] at hc; simp [hf _ hc]
    · omega
  · intro U ρ he c' hc'
    apply h.env U ρ he c'
    simp only at hc'
    split at hc'
    · exact List.mem_of_mem_eraseIdx hc'
    · exact hc'
  · intro U ρ he l
    rw [← h.cost U ρ he l]
    have hpen := fun l hl => penalties_split utmValue U ρ (l := l) (i := i) hl hts
    have hp := penalty_utm (U := U) (ρ := ρ) hm ha hlo hhi
    rcases loc with _ | _ | _ | loc
    · have := hpen _ hc
      simp only [Prob.consAt] at this
      rcases l with _ | _ | _ <;> simp [Prob.costAt, Prob.consAt, this, hp, add_assoc]
    · have := hpen _ hc
      simp only [Prob.consAt] at this
      rcases l with _ | _ | _ <;> simp [Prob.costAt, Prob.consAt, this, hp, add_assoc]
    · have := hpen _ hc
      simp only [Prob.consAt] at this
      rcases l with _ | _ | _ <;> simp [Prob.costAt, Prob.consAt, this, hp, add_assoc]
    · omega
  all_goals have hE : epsControls (if loc = 1 then p.path.eraseIdx i else p.path) = epsControls p.path := by
              split
              · next e => subst e; exact epsControls_eraseIdx_utm _ _ _ hc hm
              · rfl
  · simp only [hE]; exact h.gone
  · simp only [hE]; exact h.sub
  · simp only [hE]; exact h.controls
  · obtain ⟨tags, e1, e2⟩ := h.chain
    refine ⟨tags ++ [.identity], by simp [e1], ?_⟩
    rw [List.length_append, List.length_singleton]
    omega

/-! ### EpsTrig -/

/-- The expression that replaces the control `u`. -/
def trigExpr (u : Name) (lo hi : Expr) : Expr := (hi - lo) / 2 * fn .sin (sym (trigName u)) + (hi + lo) / 2

theorem eval_trigExpr (U : Name → Nat → ℝ → ℝ) (ρ : Name → ℝ) (u : Name) (lo hi : Expr) :
    eval (real U) ρ (trigExpr u lo hi) =
      (eval (real U) ρ hi - eval (real U) ρ lo) / 2 * Real.sin (ρ (trigName u)) +
        (eval (real U) ρ hi + eval (real U) ρ lo) / 2 := by
  have e1 : eval (real U) ρ (fn .sin (sym (trigName u))) = Real.sin (ρ (trigName u)) := rfl
  simp only [trigExpr, eval_add, eval_mul, eval_div, eval_sub, eval_two, e1]

theorem free_trigExpr (u : Name) (lo hi : Expr) (s : Name) :
    s ∈ (trigExpr u lo hi).free ↔ s ∈ lo.free ∨ s ∈ hi.free ∨ s = trigName u := by
  change s ∈ ((hi.free ++ ([] ++ lo.free)) ++ [] ++ [trigName u]) ++ ((hi.free ++ lo.free) ++ []) ↔ _
  simp only [List.mem_append, List.not_mem_nil, or_false, false_or, List.mem_singleton]
  tauto

theorem epsTrig_inv {p p' : Prob} (h : epsTrig p = .ok p') : ∃ i c k u a lo hi,
    p.path[i]? = some c ∧ c.method = .epstrig ∧ c.expr = sym u ∧ p.controls[k]? = some u ∧
    c.activator = some a ∧ c.lower = some lo ∧ c.upper = some hi ∧
    p' = (let p2 := ({ p with
              path := p.path.eraseIdx i
              controls := p.controls.set k (trigName u)
              costPath := p.costPath + (-a) * fn .cos (sym (trigName u)) } : Prob).subsAll u (trigExpr u lo hi)
          { p2 with chain := p2.chain ++ [.epsTrig k lo hi p2.ind (p2.states.map Dyn.name) p2.parameters
              p2.constants] }) := by
  rw [epsTrig] at h
  split at h
  · cases h
  · cases hf : p.path.findIdx? (fun c => decide (c.method = .epstrig)) with
    | none => rw [hf] at h; cases h
    | some i =>
      rw [hf] at h
      simp only at h
      obtain ⟨c, hc, hm⟩ := findIdx?_some hf
      rw [hc] at h
      simp only at h
      cases hg : p.controls.findIdx? (fun u => decide (c.expr = sym u)) with
      | none => rw [hg] at h; cases h
      | some k =>
        rw [hg] at h
        simp only at h
        obtain ⟨u, hu, he⟩ := findIdx?_some hg
        rw [hu] at h
        cases ea : c.activator with
        | none => rw [ea] at h; cases h
        | some a =>
          cases el : c.lower with
          | none => rw [ea, el] at h; cases h
          | some lo =>
            cases eh : c.upper with
            | none => rw [ea, el, eh] at h; cases h
            | some hi =>
              rw [ea, el, eh] at h
              simp only at h
              cases h
              exact ⟨i, c, k, u, a, lo, hi, hc, by simpa using hm, by simpa using he, hu, ea, el, eh, rfl⟩

theorem epsTrig_ok {p : Prob} {C : List Name} (hr : Regularisable C p) (hn : 0 < leftEps p) :
    ∃ p', epsTrig p = .ok p' := by
  cases hp : epsTrig p with
  | ok p' => exact ⟨p', rfl⟩
  | error e =>
    exfalso
    rw [epsTrig, if_neg (by simp [hr.sympified])] at hp
    cases hf : p.path.findIdx? (fun c => decide (c.method = .epstrig)) with
    | none =>
      rw [List.findIdx?_eq_none_iff] at hf
      have : leftEps p = 0 := by
        apply countM_eq_zero
        intro c hc hh
        have := hf c hc
        simp [hh.1] at this
      omega
    | some i =>
      rw [hf] at hp
      simp only at hp
      obtain ⟨c, hc, hm⟩ := findIdx?_some hf
      rw [hc] at hp
      simp only at hp
      obtain ⟨u, a, lo, hi, he, hu, -, ea, el, eh, -⟩ := hr.eps c (List.mem_of_getElem? hc) (by simpa using hm)
      cases hg : p.controls.findIdx? (fun u => decide (c.expr = sym u)) with
      | none =>
        rw [List.findIdx?_eq_none_iff] at hg
        have := hg u hu
        simp [he] at this
      | some k =>
        rw [hg] at hp
        simp only at hp
        obtain ⟨u', hu', -⟩ := findIdx?_some hg
        rw [hu', ea, el, eh] at hp
        cases hp

theorem mem_epsControls {cons : List Con} {u : Name} :
    u ∈ epsControls cons ↔ ∃ c ∈ cons, c.method = .epstrig ∧ c.expr = sym u := by
  rw [epsControls, List.mem_filterMap]
  constructor
  · rintro ⟨c, hc, h⟩
    refine ⟨c, hc, ?_⟩
    split at h
    · next hm he => exact ⟨hm, by rw [he]; cases h; rfl⟩
    · cases h
  · rintro ⟨c, hc, hm, he⟩
    exact ⟨c, hc, by simp [hm, he]⟩

theorem epsControls_split : ∀ (l : List Con) (i : Nat) (c : Con) (u : Name), l[i]? = some c → c.method = .epstrig →
    c.expr = sym u → (epsControls l).Perm (u :: epsControls (l.eraseIdx i))
  | x :: l, 0, c, u, h, hm, he => by
    simp only [List.getElem?_cons_zero, Option.some.injEq] at h
    subst h
    simp [epsControls, hm, he]
  | x :: l, i + 1, c, u, h, hm, he => by
    have ih := epsControls_split l i c u (by simpa using h) hm he
    simp only [List.eraseIdx_cons_succ]
    have hx : ∀ l', epsControls (x :: l') = epsControls [x] ++ epsControls l' := by
      intro l'; simp only [epsControls]; rw [← List.filterMap_append]; rfl
    rw [hx l, hx (l.eraseIdx i)]
    refine (List.Perm.append_left _ ih).trans ?_
    exact List.perm_middle

theorem epsControls_rw {l : List Con} {u : Name} {e : Expr} (h : ∀ c ∈ l, c.method = .epstrig → ∃ v, c.expr = sym v ∧ v ≠ u) :
    epsControls (l.map (Con.rw (Expr.subs u e))) = epsControls l := by
  induction l with
  | nil => rfl
  | cons c l ih =>
    have ih := ih fun c hc => h c (by simp [hc])
    have hx : ∀ x l', epsControls (x :: l') = epsControls [x] ++ epsControls l' := by
      intro x l'; simp only [epsControls]; rw [← List.filterMap_append]; rfl
    rw [List.map_cons, hx, hx c, ih]
    congr 1
    by_cases hm : c.method = .epstrig
    · obtain ⟨v, hv, hne⟩ := h c (by simp) hm
      simp [epsControls, Con.rw, hm, hv, Expr.subs, hne]
    · have : (c.rw (Expr.subs u e)).method ≠ .epstrig := hm
      simp [epsControls, hm, this]

theorem penalty_rw {U : Name → Nat → ℝ → ℝ} {ρ : Name → ℝ} {u : Name} {e : Expr} (hρ : ρ u = eval (real U) ρ e) {c : Con}
    (h : c.method = .epstrig → ∃ v, c.expr = sym v ∧ v ≠ u) :
    penalty utmValue U ρ (c.rw (Expr.subs u e)) = penalty utmValue U ρ c := by
  have hev := fun x => eval_subs_of_eq (real U) ρ u e x hρ
  obtain ⟨ex, lo, hi, ac, m⟩ := c
  simp only at h
  cases m with
  | utm => cases ac <;> cases lo <;> cases hi <;> simp [penalty, Con.rw, hev]
  | epstrig =>
    obtain ⟨v, rfl, hv⟩ := h rfl
    cases ac <;> cases lo <;> cases hi <;> simp [penalty, Con.rw, Expr.subs, hv]
  | other => simp [penalty, Con.rw]

theorem penalties_rw {U : Name → Nat → ℝ → ℝ} {ρ : Name → ℝ} {u : Name} {e : Expr} (hρ : ρ u = eval (real U) ρ e) {l : List Con}
    (h : ∀ c ∈ l, c.twoSided = true → c.method = .epstrig → ∃ v, c.expr = sym v ∧ v ≠ u) :
    penalties utmValue U ρ (l.map (Con.rw (Expr.subs u e))) = penalties utmValue U ρ l := by
  induction l with
  | nil => rfl
  | cons c l ih =>
    have ih := ih fun c hc => h c (by simp [hc])
    simp only [penalties] at ih ⊢
    simp only [List.map_cons, List.filter_cons, twoSided_rw]
    by_cases ht : c.twoSided = true
    · rw [if_pos ht, if_pos ht, List.map_cons, List.sum_cons, List.map_cons, List.sum_cons, ih,
        penalty_rw hρ (h c (by simp) ht)]
    · rw [if_neg ht, if_neg ht, ih]

theorem regInv_eps {p0 p p' : Prob} {f : Expr → Expr} (hnd : p0.controls.Nodup)
    (hE0 : ∀ s ∈ epsControls p0.path, s ∈ p0.controls) (h : RegInv p0 p f) (hu : epsTrig p = .ok p') :
    ∃ f', RegInv p0 p' f' ∧ leftUtm p' = leftUtm p ∧ leftEps p = leftEps p' + 1 := by
  obtain ⟨i, c, k, u, a, lo, hi, hc, hm, he, hk, ha, hlo, hhi, rfl⟩ := epsTrig_inv hu
  have hcm : c ∈ p.path := List.mem_of_getElem? hc
  have hts : c.twoSided = true := twoSided_iff.2 ⟨lo, hi, hlo, hhi⟩
  obtain ⟨u', a', lo', hi', e1, -, huC, e2, e3, e4, hfree⟩ := h.ok.eps c hcm hm
  have e1' : u' = u := by have := e1.symm.trans he; cases this; rfl
  subst e1'
  have e2' : a' = a := by have := e2.symm.trans ha; cases this; rfl
  subst e2'
  have e3' : lo' = lo := by have := e3.symm.trans hlo; cases this; rfl
  subst e3'
  have e4' : hi' = hi := by have := e4.symm.trans hhi; cases this; rfl
  subst e4'
  have hperm := epsControls_split p.path i c u' hc hm he
  have hnod : (u' :: epsControls (p.path.eraseIdx i)).Nodup := hperm.nodup_iff.1 h.ok.once
  have hnotin : u' ∉ epsControls (p.path.eraseIdx i) := (List.nodup_cons.1 hnod).1
  have hother : ∀ c' ∈ p.path.eraseIdx i, c'.method = .epstrig → ∃ v, c'.expr = sym v ∧ v ≠ u' := by
    intro c' hc' hm'
    obtain ⟨v, _, _, _, ev, -⟩ := h.ok.eps c' (List.mem_of_mem_eraseIdx hc') hm'
    refine ⟨v, ev, ?_⟩
    rintro rfl
    exact hnotin (mem_epsControls.2 ⟨c', hc', hm', ev⟩)
  have hEE : epsControls ((p.path.eraseIdx i).map (Con.rw (Expr.subs u' (trigExpr u' lo' hi')))) =
      epsControls (p.path.eraseIdx i) := epsControls_rw hother
  have hρ : ∀ U ρ, TrigEnv p0 U ρ → ρ u' = eval (real U) ρ (trigExpr u' lo' hi') := by
    intro U ρ hE
    rw [eval_trigExpr]
    exact h.env U ρ hE c hcm u' lo' hi' hm he hlo hhi
  have hends : ∀ c' ∈ p.initial ++ p.terminal, c'.twoSided = true → c'.method = .epstrig →
      ∃ v, c'.expr = sym v ∧ v ≠ u' := by
    intro c' hc' ht' hm'
    have := h.ok.ends c' hc' ht'
    rw [hm'] at this
    cases this
  have hcount : countM .epstrig p.path = countM .epstrig (p.path.eraseIdx i) + 1 ∧
      countM .utm p.path = countM .utm (p.path.eraseIdx i) := by
    have h1 := countP_eraseIdx (fun c : Con => decide (c.method = .epstrig) && c.twoSided) p.path i c hc
    have h2 := countP_eraseIdx (fun c : Con => decide (c.method = .utm) && c.twoSided) p.path i c hc
    simp only [hm, hts] at h1 h2
    exact ⟨by simpa [countM] using h1, by simpa [countM] using h2⟩
  have hleft : countM .utm (p.initial.map (Con.subs u' (trigExpr u' lo' hi'))) +
      countM .utm ((p.path.eraseIdx i).map (Con.subs u' (trigExpr u' lo' hi'))) +
      countM .utm (p.terminal.map (Con.subs u' (trigExpr u' lo' hi'))) = leftUtm p ∧
      leftEps p = countM .epstrig ((p.path.eraseIdx i).map (Con.subs u' (trigExpr u' lo' hi'))) + 1 := by
    simp only [Con.subs_eq, countM_rw, leftUtm, leftEps, hcount]
    exact ⟨trivial, trivial⟩
  refine ⟨Expr.subs u' (trigExpr u' lo' hi') ∘ f, ⟨?_, ?_, ?_, ?_, ?_, ?_, ?_, ?_, ?_, ?_⟩, hleft⟩
  · refine ⟨h.ok.sympified, ?_, ?_, ?_, ?_, ?_, h.ok.fresh⟩
    · intro c' hc' ht
      simp only [Prob.subsAll, Con.subs_eq, ← List.map_append, List.mem_map] at hc'
      obtain ⟨c0, h0, rfl⟩ := hc'
      rw [twoSided_rw] at ht
      exact h.ok.ends c0 h0 ht
    · intro c' hc' ht
      simp only [Prob.subsAll, Con.subs_eq, List.mem_map] at hc'
      obtain ⟨c0, h0, rfl⟩ := hc'
      rw [twoSided_rw] at ht
      exact h.ok.known c0 (List.mem_of_mem_eraseIdx h0) ht
    · intro c' hc' ht hm'
      simp only [Prob.subsAll, Con.subs_eq, ← List.map_append, List.mem_map] at hc'
      obtain ⟨c0, h0, rfl⟩ := hc'
      rw [twoSided_rw] at ht
      refine h.ok.act c0 ?_ ht hm'
      rw [List.mem_append, List.mem_append] at h0 ⊢
      exact h0.imp (Or.imp id List.mem_of_mem_eraseIdx) id
    · intro c' hc' hm'
      simp only [Prob.subsAll, Con.subs_eq, List.mem_map] at hc'
      obtain ⟨c0, h0, rfl⟩ := hc'
      obtain ⟨v, a0, lo0, hi0, ev, hv, hvC, ea0, el0, eh0, hf0⟩ := h.ok.eps c0 (List.mem_of_mem_eraseIdx h0) hm'
      obtain ⟨v', ev', hne⟩ := hother c0 h0 hm'
      have : v' = v := by have := ev'.symm.trans ev; cases this; rfl
      subst this
      have hlofree : u' ∉ lo0.free := fun hh => hf0 u' (by simp [hh]) huC
      have hhifree : u' ∉ hi0.free := fun hh => hf0 u' (by simp [hh]) huC
      refine ⟨v', a0, lo0, hi0, ?_, ?_, hvC, ea0, ?_, ?_, hf0⟩
      · simp [Con.rw, ev, Expr.subs, hne]
      · simp only [Prob.subsAll]
        obtain ⟨j, hj, ej⟩ := List.mem_iff_getElem.1 hv
        apply List.mem_iff_getElem?.2
        refine ⟨j, ?_⟩
        rw [List.getElem?_set, if_neg]
        · rw [List.getElem?_eq_getElem hj, ej]
        · rintro rfl
          rw [List.getElem?_eq_getElem hj, ej] at hk
          cases hk
          exact hne rfl
      · simp [Con.rw, el0, subs_of_not_mem hlofree]
      · simp [Con.rw, eh0, subs_of_not_mem hhifree]
    · simp only [Prob.subsAll, Con.subs_eq, hEE]
      exact (List.nodup_cons.1 hnod).2
  · have hp1 : ({ p with
          path := p.path.eraseIdx i
          controls := p.controls.set k (trigName u')
          costPath := p.costPath + (-a') * fn .cos (sym (trigName u')) } : Prob).bare = p.bare := by
      simp only [Prob.bare]
      rw [filter_eraseIdx _ _ _ _ hc (by simp [hts])]
    have h1 : ∀ (q : Prob) (t : List MapTag), ({ q with chain := t } : Prob).bare = q.bare := fun _ _ => rfl
    simp only [h1]
    rw [bare_subsAll, bare_mapEqs, hp1, h.rest, ← bare_mapEqs, mapEqs_mapEqs]
  · intro U ρ hE e
    rw [Function.comp_apply, eval_subs_of_eq _ _ _ _ _ (hρ U ρ hE)]
    exact h.meaning U ρ hE e
  · intro U ρ hE c' hc' v lo1 hi1 hm' ev' el' eh'
    simp only [Prob.subsAll, Con.subs_eq, List.mem_map] at hc'
    obtain ⟨c0, h0, rfl⟩ := hc'
    obtain ⟨v0, ev0, hne⟩ := hother c0 h0 hm'
    have hv : v0 = v := by
      simp only [Con.rw, ev0, Expr.subs, if_neg hne] at ev'
      cases ev'; rfl
    subst hv
    simp only [Con.rw, Option.map_eq_some_iff] at el' eh'
    obtain ⟨lo2, h2, rfl⟩ := el'
    obtain ⟨hi2, h3, rfl⟩ := eh'
    rw [eval_subs_of_eq _ _ _ _ _ (hρ U ρ hE), eval_subs_of_eq _ _ _ _ _ (hρ U ρ hE)]
    exact h.env U ρ hE c0 (List.mem_of_mem_eraseIdx h0) v0 lo2 hi2 hm' ev0 h2 h3
  · intro U ρ hE l
    rw [← h.cost U ρ hE l]
    have hev := fun x => eval_subs_of_eq (real U) ρ u' (trigExpr u' lo' hi') x (hρ U ρ hE)
    rcases l with _ | _ | l
    · simp only [Prob.costAt, Prob.consAt, Prob.subsAll, hev, Con.subs_eq]
      rw [penalties_rw (hρ U ρ hE) fun c hc => hends c (by simp [hc])]
    · simp only [Prob.costAt, Prob.consAt, Prob.subsAll, hev, Con.subs_eq]
      rw [penalties_rw (hρ U ρ hE) fun c hc _ => hother c hc]
      have hp := penalties_split utmValue U ρ hc hts
      have hpe : penalty utmValue U ρ c = eval (real U) ρ ((-a') * fn .cos (sym (trigName u'))) := by
        have e5 : eval (real U) ρ (fn .cos (sym (trigName u'))) = Real.cos (ρ (trigName u')) := rfl
        rw [eval_mul, eval_neg, e5]
        obtain ⟨ex, l0, h0, ac, m0⟩ := c
        simp only at hm he ha hlo hhi
        subst hm he ha hlo hhi
        rfl
      simp only [hp, hpe, eval_add]
      ring
    · simp only [Prob.costAt, Prob.consAt, Prob.subsAll, hev, Con.subs_eq]
      rw [penalties_rw (hρ U ρ hE) fun c hc => hends c (by simp [hc])]
  · intro e s hs hs0
    simp only [Prob.subsAll, Con.subs_eq, hEE]
    rcases mem_free_subs.1 hs with ⟨h1, h2⟩ | ⟨h1, -⟩
    · have := hperm.mem_iff.1 (h.gone e s h1 hs0)
      rcases List.mem_cons.1 this with h3 | h3
      · exact absurd h3 h2
      · exact h3
    · exfalso
      have hsC := hE0 s hs0
      rcases (free_trigExpr _ _ _ _).1 h1 with h2 | h2 | h2
      · exact hfree s (by simp [h2]) hsC
      · exact hfree s (by simp [h2]) hsC
      · exact h.ok.fresh u' huC (h2 ▸ hsC)
  · intro v hv
    simp only [Prob.subsAll, Con.subs_eq, hEE] at hv
    exact h.sub v (hperm.mem_iff.2 (List.mem_cons_of_mem _ hv))
  · simp only [Prob.subsAll, Con.subs_eq, hEE]
    have hmem : ∀ w, w ≠ u' → (w ∈ epsControls p.path ↔ w ∈ epsControls (p.path.eraseIdx i)) := by
      intro w hw
      rw [hperm.mem_iff, List.mem_cons]
      exact ⟨fun h => h.resolve_left hw, Or.inr⟩
    have hu0 : u' ∈ epsControls p0.path := h.sub u' (hperm.mem_iff.2 (by simp))
    have hk0 : p0.controls[k]? = some u' := by
      have := hk
      rw [h.controls, List.getElem?_map, Option.map_eq_some_iff] at this
      obtain ⟨w, hw, ew⟩ := this
      split at ew
      · exact absurd (ew ▸ huC) (h.ok.fresh w (List.mem_of_getElem? hw))
      · rw [hw, ew]
    apply List.ext_getElem?
    intro j
    rw [List.getElem?_set, List.getElem?_map]
    by_cases hj : k = j
    · subst hj
      rw [if_pos rfl, if_pos (List.getElem?_eq_some_iff.1 hk).1, hk0]
      simp [hu0, hnotin]
    · rw [if_neg hj, h.controls, List.getElem?_map]
      cases hw : p0.controls[j]? with
      | none => rfl
      | some w =>
        have hne : w ≠ u' := by
          rintro rfl
          obtain ⟨l1, g1⟩ := List.getElem?_eq_some_iff.1 hk0
          obtain ⟨l2, g2⟩ := List.getElem?_eq_some_iff.1 hw
          exact hj ((List.Nodup.getElem_inj_iff hnd).1 (g1.trans g2.symm))
        simp only [Option.map_some, hmem w hne]
  · intro e he
    rw [Function.comp_apply, h.fixes e he, subs_of_not_mem fun hh => he _ hh (h.sub u' (hperm.mem_iff.2 (by simp)))]
  · obtain ⟨tags, t1, t2⟩ := h.chain
    refine ⟨tags ++ [.epsTrig k lo' hi' p.ind (p.states.map Dyn.name) p.parameters p.constants], ?_, ?_⟩
    · simp [Prob.subsAll, t1, List.map_map, Function.comp_def, Dyn.subs]
    · rw [List.length_append, List.length_singleton]
      simp only [leftUtm, leftEps, Prob.subsAll, Con.subs_eq, countM_rw] at t2 ⊢
      omega

/-- The whole run. -/
theorem regInv_run {S : Sympy} {p0 : Prob} (hnd : p0.controls.Nodup)
    (hE0 : ∀ s ∈ epsControls p0.path, s ∈ p0.controls) : ∀ (steps : List Step) (p : Prob) (f : Expr → Expr),
    (∀ s ∈ steps, s = .utm ∨ s = .epsTrig) → RegInv p0 p f → steps.count .utm = leftUtm p →
    steps.count .epsTrig = leftEps p →
    ∃ p' f', runSteps S steps p = .ok p' ∧ RegInv p0 p' f' ∧ leftUtm p' = 0 ∧ leftEps p' = 0
  | [], p, f, _, h, h1, h2 => ⟨p, f, rfl, h, h1.symm, h2.symm⟩
  | s :: steps, p, f, hs, h, h1, h2 => by
    rcases hs s (by simp) with rfl | rfl
    · simp only [List.count_cons] at h1 h2
      simp at h1 h2
      obtain ⟨p1, hp1⟩ := utm_ok h.ok (by omega)
      obtain ⟨hi, l1, l2⟩ := regInv_utm h hp1
      obtain ⟨p', f', hr, rest⟩ := regInv_run hnd hE0 steps p1 f (fun s hs' => hs s (by simp [hs'])) hi (by omega)
        (by omega)
      refine ⟨p', f', ?_, rest⟩
      rw [runSteps, List.foldlM_cons]
      change (utm p >>= _) = _
      rw [hp1]
      exact hr
    · simp only [List.count_cons] at h1 h2
      simp at h1 h2
      obtain ⟨p1, hp1⟩ := epsTrig_ok h.ok (by omega)
      obtain ⟨f1, hi, l1, l2⟩ := regInv_eps hnd hE0 h hp1
      obtain ⟨p', f', hr, rest⟩ := regInv_run hnd hE0 steps p1 f1 (fun s hs' => hs s (by simp [hs'])) hi (by omega)
        (by omega)
      refine ⟨p', f', ?_, rest⟩
      rw [runSteps, List.foldlM_cons]
      change (epsTrig p >>= _) = _
      rw [hp1]
      exact hr

end Beluga.Sym
