import Verif.Symbolic.Props2
import Verif.Symbolic.Props6

/-! # Which symbols occur in the equations of a problem -/

namespace Beluga.Opt

open Beluga.Sym Beluga.Sym.Expr

/-- The expressions of a constraint. -/
def parts (c : Con) : List Expr := c.expr :: (c.lower.toList ++ c.upper.toList)

/-- The expressions that the functors for constraints and switches rewrite, as far as they reach the dual problem. -/
def exprs (p : Prob) : List Expr :=
  p.states.map Dyn.eom ++ (p.initial ++ p.path ++ p.terminal).flatMap parts ++
    [p.costInitial, p.costPath, p.costTerminal] ++ p.switches.map Switch.symFunc

theorem parts_rw {f : Expr → Expr} {c : Con} : parts (c.rw f) = (parts c).map f := by
  cases c with
  | mk e l u a m => cases l <;> cases u <;> rfl

theorem exprs_mapEqs (f : Expr → Expr) (p : Prob) : exprs (p.mapEqs f) = (exprs p).map f := by
  have h1 : ∀ l : List Con, (l.map (Con.rw f)).flatMap parts = (l.flatMap parts).map f := by
    intro l
    induction l with
    | nil => rfl
    | cons c l ih => rw [List.map_cons, List.flatMap_cons, List.flatMap_cons, parts_rw, ih, List.map_append]
  have h2 : ∀ l : List Con, (l.map fun c => (⟨f c.expr, c.lower.map f, c.upper.map f, c.activator, c.method⟩ : Con)) =
    l.map (Con.rw f) := fun _ => rfl
  simp only [exprs, Prob.mapEqs, List.flatMap_append, List.map_append, List.map_map, Function.comp_def, h2, h1,
    List.map_cons, List.map_nil]

theorem exprs_subsAll (x : Name) (v : Expr) (p : Prob) : exprs (p.subsAll x v) = (exprs p).map (Expr.subs x v) := by
  rw [← exprs_mapEqs, subsAll_eq]
  rfl

theorem mem_exprs_con {p : Prob} {c : Con} {e : Expr} (hc : c ∈ p.initial ++ p.path ++ p.terminal) (he : e ∈ parts c) :
    e ∈ exprs p := by
  simp only [exprs, List.mem_append, List.mem_flatMap]
  exact Or.inl (Or.inl (Or.inr ⟨c, by simpa only [List.mem_append] using hc, he⟩))

/-- All symbols in the equations satisfy `G`; of the names `E` only those still to be replaced occur; the symbols in
switching functions and in the bounds still to be used satisfy `G'`. -/
structure Tracks (G G' : Name → Prop) (E : List Name) (p : Prob) : Prop where
  all : ∀ e ∈ exprs p, ∀ s ∈ e.free, G s ∧ (s ∈ E → s ∈ epsControls p.path)
  switches : ∀ s ∈ p.switches, ∀ x ∈ s.symFunc.free, G' x
  bounds : ∀ c ∈ p.path, c.method = .epstrig → ∀ e, c.lower = some e ∨ c.upper = some e → ∀ x ∈ e.free, G' x
  act : ∀ c ∈ p.path, c.method = .epstrig → ∀ a, c.activator = some a → ∀ x ∈ a.free, G x

theorem free_utmTerm (a e lo hi : Expr) (s : Name) :
    s ∈ (utmTerm a e lo hi).free → s ∈ a.free ∨ s ∈ e.free ∨ s ∈ lo.free ∨ s ∈ hi.free := by
  intro h
  change s ∈ a.free ++ ((([] ++ (([] ++ [] ++ (((([] ++ e.free) ++ ([] ++ hi.free)) ++ ([] ++ lo.free)))) ++
    (hi.free ++ ([] ++ lo.free))))) ++ _) at h
  simp only [List.mem_append, List.not_mem_nil, or_false, false_or] at h
  have h0 : s ∈ (([] : List Name) ++ ([] : List Name)) → False := by simp
  tauto

theorem tracks_utm {G G' : Name → Prop} {p0 p p' : Prob} {f : Expr → Expr} (h : RegInv p0 p f)
    (hc0 : ∀ k ∈ p0.constants, G k ∧ k ∉ epsControls p0.path) (ht : Tracks G G' (epsControls p0.path) p)
    (hu : utm p = .ok p') : Tracks G G' (epsControls p0.path) p' := by
  obtain ⟨loc, i, c, k, a, lo, hi, hl, hc, hm, ha, hk, rfl, hlo, hhi, rfl⟩ := utm_inv hu
  have hconst : p.constants = p0.constants := by
    have : p.bare.constants = (p0.mapEqs f).bare.constants := congrArg Prob.constants h.rest
    exact this
  have hcm : c ∈ p.initial ++ p.path ++ p.terminal := by
    have := List.mem_of_getElem? hc
    rcases loc with _ | _ | _ | loc
    · simp only [Prob.consAt] at this; simp [this]
    · simp only [Prob.consAt] at this; simp [this]
    · simp only [Prob.consAt] at this; simp [this]
    · omega
  have hE : ∀ P : List Con, P = (if loc = 1 then p.path.eraseIdx i else p.path) → epsControls P = epsControls p.path := by
    rintro P rfl
    split
    · next e => subst e; exact epsControls_eraseIdx_utm p.path _ _ hc hm
    · rfl
  have m1 : ∀ x, x ∈ (if loc = 1 then p.path.eraseIdx i else p.path) → x ∈ p.path := by
    intro x hx; split at hx
    · exact List.mem_of_mem_eraseIdx hx
    · exact hx
  have m0 : ∀ x, x ∈ (if loc = 0 then p.initial.eraseIdx i else p.initial) → x ∈ p.initial := by
    intro x hx; split at hx
    · exact List.mem_of_mem_eraseIdx hx
    · exact hx
  have m2 : ∀ x, x ∈ (if loc = 2 then p.terminal.eraseIdx i else p.terminal) → x ∈ p.terminal := by
    intro x hx; split at hx
    · exact List.mem_of_mem_eraseIdx hx
    · exact hx
  refine ⟨?_, ht.switches, fun c hc => ht.bounds c (m1 c hc), fun c hc => ht.act c (m1 c hc)⟩
  intro e he s hs
  rw [hE _ rfl]
  have hterm : ∀ s ∈ (utmTerm (sym k) c.expr lo hi).free, G s ∧ (s ∈ epsControls p0.path → s ∈ epsControls p.path) := by
    intro s hs
    rcases free_utmTerm _ _ _ _ _ hs with h1 | h1 | h1 | h1
    · simp only [free, List.mem_singleton] at h1
      subst h1
      have := hc0 s (hconst ▸ hk)
      exact ⟨this.1, fun h => absurd h this.2⟩
    · exact ht.all _ (mem_exprs_con hcm (by simp [parts])) s h1
    · exact ht.all _ (mem_exprs_con hcm (by simp [parts, hlo])) s h1
    · exact ht.all _ (mem_exprs_con hcm (by simp [parts, hhi])) s h1
  have hcost : ∀ (b : Bool) (x : Expr), x ∈ exprs p → e = (if b then x + utmTerm (sym k) c.expr lo hi else x) →
      G s ∧ (s ∈ epsControls p0.path → s ∈ epsControls p.path) := by
    rintro b x hx rfl
    cases b
    · exact ht.all _ hx s hs
    · have hs : s ∈ x.free ++ (utmTerm (sym k) c.expr lo hi).free := hs
      rcases List.mem_append.1 hs with h1 | h1
      · exact ht.all _ hx s h1
      · exact hterm s h1
  simp only [exprs, List.mem_append, List.mem_cons, List.not_mem_nil, or_false] at he
  rcases he with ((he | he) | he | he | he) | he
  · exact ht.all e (by simp [exprs, he]) s hs
  · obtain ⟨c', hc', he⟩ := List.mem_flatMap.1 he
    refine ht.all e (mem_exprs_con (c := c') ?_ he) s hs
    simp only [List.mem_append] at hc' ⊢
    exact hc'.imp (Or.imp (m0 _) (m1 _)) (m2 _)
  · exact hcost (decide (loc = 0)) p.costInitial (by simp [exprs]) (by simpa using he)
  · exact hcost (decide (loc = 1)) p.costPath (by simp [exprs]) (by simpa using he)
  · exact hcost (decide (loc = 2)) p.costTerminal (by simp [exprs]) (by simpa using he)
  · exact ht.all e (by simp only [exprs, List.mem_append]; exact Or.inr he) s hs

theorem tracks_eps {G G' : Name → Prop} {p0 p p' : Prob} {f : Expr → Expr} (h : RegInv p0 p f)
    (hE0 : ∀ s ∈ epsControls p0.path, s ∈ p0.controls) (htr : ∀ u ∈ p0.controls, G (trigName u) ∧ G' (trigName u))
    (ht : Tracks G G' (epsControls p0.path) p) (hu : epsTrig p = .ok p') : Tracks G G' (epsControls p0.path) p' := by
  obtain ⟨i, c, k, u, a, lo, hi, hc, hm, he, hk, ha, hlo, hhi, rfl⟩ := epsTrig_inv hu
  have hcm : c ∈ p.path := List.mem_of_getElem? hc
  have hca : c ∈ p.initial ++ p.path ++ p.terminal := by simp [hcm]
  obtain ⟨u', a', lo', hi', e1, -, huC, e2, e3, e4, hfree⟩ := h.ok.eps c hcm hm
  have e1' : u' = u := by have := e1.symm.trans he; cases this; rfl
  subst e1'
  have e2' : a' = a := by have := e2.symm.trans ha; cases this; rfl
  subst e2'
  have e3' : lo' = lo := by have := e3.symm.trans hlo; cases this; rfl
  subst e3'
  have e4' : hi' = hi := by have := e4.symm.trans hhi; cases this; rfl
  subst e4'
  have hperm := epsControls_split p.path i c u' hc hm he
  have hnod : (u' :: epsControls (p.path.eraseIdx i)).Nodup := hperm.nodup_iff.1 h.ok.once
  have hnotin : u' ∉ epsControls (p.path.eraseIdx i) := (List.nodup_cons.1 hnod).1
  have hother : ∀ c' ∈ p.path.eraseIdx i, c'.method = .epstrig → ∃ v, c'.expr = sym v ∧ v ≠ u' := by
    intro c' hc' hm'
    obtain ⟨v, _, _, _, ev, -⟩ := h.ok.eps c' (List.mem_of_mem_eraseIdx hc') hm'
    refine ⟨v, ev, ?_⟩
    rintro rfl
    exact hnotin (mem_epsControls.2 ⟨c', hc', hm', ev⟩)
  have hEE : epsControls ((p.path.eraseIdx i).map (Con.rw (Expr.subs u' (trigExpr u' lo' hi')))) =
      epsControls (p.path.eraseIdx i) := epsControls_rw hother
  have hnew : ∀ s ∈ (trigExpr u' lo' hi').free, (G s ∧ s ∉ epsControls p0.path) ∧ G' s := by
    intro s hs
    have hsC : s ∉ p0.controls := by
      intro hsC
      rcases (free_trigExpr _ _ _ _).1 hs with h2 | h2 | h2
      · exact hfree s (by simp [h2]) hsC
      · exact hfree s (by simp [h2]) hsC
      · exact h.ok.fresh u' huC (h2 ▸ hsC)
    refine ⟨⟨?_, fun h => hsC (hE0 s h)⟩, ?_⟩
    · rcases (free_trigExpr _ _ _ _).1 hs with h2 | h2 | h2
      · exact (ht.all _ (mem_exprs_con hca (by simp [parts, hlo])) s h2).1
      · exact (ht.all _ (mem_exprs_con hca (by simp [parts, hhi])) s h2).1
      · exact h2 ▸ (htr u' huC).1
    · rcases (free_trigExpr _ _ _ _).1 hs with h2 | h2 | h2
      · exact ht.bounds c hcm hm lo' (Or.inl hlo) s h2
      · exact ht.bounds c hcm hm hi' (Or.inr hhi) s h2
      · exact h2 ▸ (htr u' huC).2
  have hsub' : ∀ e : Expr, (∀ s ∈ e.free, G' s) → ∀ s ∈ (Expr.subs u' (trigExpr u' lo' hi') e).free, G' s := by
    intro e h s hs
    rcases mem_free_subs.1 hs with ⟨h1, -⟩ | ⟨h1, -⟩
    · exact h s h1
    · exact (hnew s h1).2
  refine ⟨?_, ?_, ?_, ?_⟩
  · intro e he s hs
    simp only [Prob.subsAll, Con.subs_eq, hEE]
    change e ∈ exprs (({ p with
              path := p.path.eraseIdx i
              controls := p.controls.set k (trigName u')
              costPath := p.costPath + (-a') * fn .cos (sym (trigName u')) } : Prob).subsAll u' (trigExpr u' lo' hi')) at he
    rw [exprs_subsAll] at he
    obtain ⟨e0, h0, rfl⟩ := List.mem_map.1 he
    have hmain : ∀ x ∈ e0.free, G x ∧ (x ∈ epsControls p0.path → x ∈ epsControls p.path) := by
      intro x hx
      simp only [exprs, List.mem_append, List.mem_cons, List.not_mem_nil, or_false] at h0
      rcases h0 with ((h0 | h0) | h0 | h0 | h0) | h0
      · exact ht.all e0 (by simp [exprs, h0]) x hx
      · obtain ⟨c', hc', h0⟩ := List.mem_flatMap.1 h0
        refine ht.all e0 (mem_exprs_con (c := c') ?_ h0) x hx
        simp only [List.mem_append] at hc' ⊢
        exact hc'.imp (Or.imp id List.mem_of_mem_eraseIdx) id
      · exact ht.all e0 (by simp [exprs, h0]) x hx
      · rw [h0] at hx
        change x ∈ p.costPath.free ++ (([] ++ a'.free) ++ [trigName u']) at hx
        simp only [List.mem_append, List.not_mem_nil, false_or, List.mem_singleton] at hx
        rcases hx with hx | hx | hx
        · exact ht.all _ (by simp [exprs]) x hx
        · exact ⟨ht.act c hcm hm a' ha x hx, fun h1 => absurd (hE0 x h1) (hfree x (by simp [hx]))⟩
        · rw [hx]
          exact ⟨(htr u' huC).1, fun h1 => absurd (hE0 _ h1) (h.ok.fresh u' huC)⟩
      · exact ht.all e0 (by simp [exprs, h0]) x hx
      · exact ht.all e0 (by simp only [exprs, List.mem_append]; exact Or.inr h0) x hx
    rcases mem_free_subs.1 hs with ⟨h1, h2⟩ | ⟨h1, -⟩
    · refine ⟨(hmain s h1).1, fun h3 => ?_⟩
      rcases List.mem_cons.1 (hperm.mem_iff.1 ((hmain s h1).2 h3)) with h4 | h4
      · exact absurd h4 h2
      · exact h4
    · exact ⟨(hnew s h1).1.1, fun h3 => absurd h3 (hnew s h1).1.2⟩
  · intro s hs
    simp only [Prob.subsAll, List.mem_map] at hs
    obtain ⟨s0, h0, rfl⟩ := hs
    exact hsub' _ (ht.switches s0 h0)
  · intro c' hc' hm' e he'
    simp only [Prob.subsAll, Con.subs_eq, List.mem_map] at hc'
    obtain ⟨c0, h0, rfl⟩ := hc'
    simp only [Con.rw, Option.map_eq_some_iff] at he'
    rcases he' with ⟨e0, g0, rfl⟩ | ⟨e0, g0, rfl⟩
    · exact hsub' _ (ht.bounds c0 (List.mem_of_mem_eraseIdx h0) hm' e0 (Or.inl g0))
    · exact hsub' _ (ht.bounds c0 (List.mem_of_mem_eraseIdx h0) hm' e0 (Or.inr g0))
  · intro c' hc' hm' a0 ha0
    simp only [Prob.subsAll, Con.subs_eq, List.mem_map] at hc'
    obtain ⟨c0, h0, rfl⟩ := hc'
    exact ht.act c0 (List.mem_of_mem_eraseIdx h0) hm' a0 ha0

theorem tracks_run {S : Sympy} {G G' : Name → Prop} {p0 : Prob} (hnd : p0.controls.Nodup)
    (hE0 : ∀ s ∈ epsControls p0.path, s ∈ p0.controls) (hc0 : ∀ k ∈ p0.constants, G k ∧ k ∉ epsControls p0.path)
    (htr : ∀ u ∈ p0.controls, G (trigName u) ∧ G' (trigName u)) : ∀ (steps : List Step) (p p' : Prob) (f : Expr → Expr),
    (∀ s ∈ steps, s = .epsTrig ∨ s = .utm) → RegInv p0 p f → Tracks G G' (epsControls p0.path) p →
    runSteps S steps p = .ok p' → Tracks G G' (epsControls p0.path) p'
  | [], p, p', f, _, _, ht, h => by cases h; exact ht
  | s :: steps, p, p', f, hs, hi, ht, h => by
    rw [runSteps_cons] at h
    obtain ⟨p1, h1, h2⟩ := bind_ok h
    rcases hs s (by simp) with rfl | rfl
    · obtain ⟨f1, hi1, -, -⟩ := regInv_eps hnd hE0 hi h1
      exact tracks_run hnd hE0 hc0 htr steps p1 p' f1 (fun s hs' => hs s (by simp [hs'])) hi1
        (tracks_eps hi hE0 htr ht h1) h2
    · exact tracks_run hnd hE0 hc0 htr steps p1 p' f (fun s hs' => hs s (by simp [hs'])) (regInv_utm hi h1).1
        (tracks_utm hi hc0 ht h1) h2

end Beluga.Opt
