import Verif.Numeric.Props1

/-!
# Analytical Jacobians (C57)

The Jacobians handed to the solvers are compared with the derivatives of the compiled functions along arbitrary
differentiable curves.
-/

set_option linter.unusedSectionVars false
set_option linter.unusedSimpArgs false

namespace Beluga.Num

open Beluga.Sym Beluga.Sym.Expr

/-- Row times vector. -/
def dot {K : Type} [Field K] (a b : List K) : K := (List.zipWith (· * ·) a b).sum

/-! ### Names that are not arguments -/

section
variable {K : Type} [Field K] [LinearOrder K]

theorem lookup_bind : ∀ {args : List (List Name)} {vals : List (List K)} {env : List (Name × K)} {s : Name},
    bindArgs args vals = .ok env → s ∉ args.flatten → env.lookup s = none
  | [], [], env, s, h, _ => by cases h; rfl
  | [], _ :: _, _, _, h, _ => by cases h
  | _ :: _, [], _, _, h, _ => by cases h
  | ns :: args, vs :: vals, env, s, h, hs => by
    rw [bindArgs] at h
    split at h
    · cases h
    · cases hb : bindArgs args vals with
      | error e => rw [hb] at h; cases h
      | ok rest =>
        rw [hb] at h
        cases h
        rw [List.flatten_cons, List.mem_append, not_or] at hs
        rw [List.lookup_append, lookup_bind hb hs.2, Option.or_none]
        rw [List.lookup_eq_none_iff]
        intro x hx
        have := (List.of_mem_zip hx).1
        simp only [beq_eq_false_iff_ne, bne_iff_ne, ne_eq]
        rintro rfl
        exact hs.1 this

theorem lambdify_unknown (I : Interp K) {args : List (List Name)} {vals : List (List K)} {e : Expr} {s : Name}
    (hs : s ∈ e.free) (hn : s ∉ args.flatten) (x : K) : lambdify I args e vals ≠ .ok x := by
  intro h
  rw [lambdify] at h
  cases hb : bindArgs args vals with
  | error e => rw [hb] at h; cases h
  | ok env =>
    rw [hb, ok_bind, if_neg] at h
    · cases h
    · rw [List.all_eq_true]
      intro ha
      have := ha s hs
      rw [lookup_bind hb hn] at this
      cases this

theorem lambdifyL_unknown (I : Interp K) {args : List (List Name)} {vals : List (List K)} {s : Name} (hn : s ∉ args.flatten) :
    ∀ {es : List Expr} {e : Expr}, e ∈ es → s ∈ e.free → ∀ x, lambdifyL I args es vals ≠ .ok x
  | [], e, he, _ => by simp at he
  | e' :: es, e, he, hs => by
    intro x h
    rw [lambdifyL, List.mapM_cons] at h
    cases h1 : lambdify I args e' vals with
    | error _ => rw [h1] at h; cases h
    | ok y =>
      rw [h1, ok_bind] at h
      rcases List.mem_cons.1 he with rfl | he
      · exact lambdify_unknown I hs hn y h1
      · cases h2 : List.mapM (fun e => lambdify I args e vals) es with
        | error _ => rw [h2] at h; cases h
        | ok z => exact lambdifyL_unknown I hn he hs z h2

/-- **C56 is violated.**  If a right-hand side contains a symbol that is no state, parameter, constant or control, for
instance the independent variable (which is not an argument of the compiled functions, so a problem with explicit time
and `momentum_shift=False`), the derivative function never returns. -/
theorem C56_violated (I : Interp K) {p : Prob} {d : Dyn} (hd : d ∈ p.states) {s : Name} (hs : s ∈ d.eom.free)
    (hn : s ∉ sts p ++ p.controls ++ p.parameters ++ p.constants) (y pr k : List K) (x : List K) :
    derivFunc I p y pr k ≠ .ok x := by
  intro h
  rw [derivFunc, atPoint] at h
  simp only [List.mem_append, not_or] at hn
  cases hu : computeU I p y pr k with
  | error e => rw [hu] at h; cases h
  | ok o =>
    rw [hu, ok_bind] at h
    cases o with
    | none =>
      exact lambdifyL_unknown I (s := s) (by simp; tauto) (List.mem_map_of_mem hd) hs x h
    | some u => exact lambdifyL_unknown I (s := s) (by simp; tauto) (List.mem_map_of_mem hd) hs x h

example : derivFunc exI ({ ind := "t", states := [⟨"x", sym "t"⟩] } : Prob) [1] [] [] = .error .nameError := by decide +kernel

end

/-! ### C57 -/

theorem jacobian_ok {rows : List Expr} {cols : List Name} {J : List (List Expr)} (h : jacobian rows cols = .ok J) :
    rows ≠ [] ∧ cols ≠ [] ∧ J = rows.map fun r => cols.map fun c => r.diff c := by
  rw [jacobian] at h
  split at h
  · cases h
  · next hn =>
    cases h
    rw [not_or] at hn
    exact ⟨hn.1, hn.2, rfl⟩

theorem bind_ok {α β : Type} {x : Py α} {f : α → Py β} {b : β} (h : (x >>= f) = .ok b) : ∃ a, x = .ok a ∧ f a = .ok b := by
  cases x with
  | error e => cases h
  | ok a => exact ⟨a, rfl, h⟩

theorem analytical_ok {p p' : Prob} (h : analyticalJacobians p = .ok p') (hp : p.parameters ≠ []) :
    p' = { p with
      dfdy := p.states.map fun d => (sts p).map fun c => d.eom.diff c
      dfdp := p.states.map fun d => p.parameters.map fun c => d.eom.diff c } ∧ p.states ≠ [] ∧ p.initial ≠ [] ∧ p.terminal ≠ [] := by
  rw [analyticalJacobians] at h
  obtain ⟨J, hJ, h⟩ := bind_ok h
  obtain ⟨J0, hJ0, h⟩ := bind_ok h
  obtain ⟨J1, hJ1, h⟩ := bind_ok h
  obtain ⟨hr, -, rfl⟩ := jacobian_ok hJ
  obtain ⟨hr0, -, -⟩ := jacobian_ok hJ0
  obtain ⟨hr1, -, -⟩ := jacobian_ok hJ1
  have hlen : (p.parameters ++ p.constraintParams).length > 0 := by
    rw [List.length_append]
    have := List.length_pos_iff.2 hp
    omega
  simp only [if_pos hlen] at h
  obtain ⟨D, hD, h⟩ := bind_ok h
  obtain ⟨_, -, h⟩ := bind_ok h
  obtain ⟨_, -, h⟩ := bind_ok h
  obtain ⟨D', hD', h⟩ := bind_ok h
  cases hD'
  obtain ⟨-, -, rfl⟩ := jacobian_ok hD
  refine ⟨?_, by simpa using hr, by simpa using hr0, by simpa using hr1⟩
  have : p' = { p with
      dfdy := (p.states.map Dyn.eom).map fun r => (p.states.map Dyn.name).map fun c => r.diff c
      dfdp := (p.states.map Dyn.eom).map fun r => p.parameters.map fun c => r.diff c } := by
    split at h
    · obtain ⟨_, -, h⟩ := bind_ok h
      obtain ⟨_, -, h⟩ := bind_ok h
      cases h; rfl
    · cases h; rfl
  rw [this, List.map_map, List.map_map]
  rfl

theorem sum_map_dot {K : Type} [Field K] (f : Name → K) (v : Name → K) (l : List Name) :
    (l.map fun s => f s * v s).sum = dot (l.map f) (l.map v) := by
  rw [dot, List.zipWith_map]
  congr 1
  induction l with
  | nil => rfl
  | cons a l ih => rw [List.map_cons, List.zipWith_cons_cons, ← ih]

/-- **C57.**  Without an algebraic control law (so with the differential control law, the default) the compiled
Jacobian is the derivative of the compiled right-hand sides: along every curve of states and parameters the right-hand
sides change at the rate `df_dy · y' + df_dp · p'`. -/
theorem C57_derivative_partial {U : Name → Nat → ℝ → ℝ} {p p' : Prob} (hJ : analyticalJacobians p = .ok p')
    (hp : p.parameters ≠ []) (hlaw : p.controlLaw = []) (hnd : (sts p ++ p.parameters).Nodup)
    (hcl : ∀ d ∈ p.states, Closed p [] d.eom) {ρ : ℝ → Name → ℝ} {v : Name → ℝ} {t : ℝ}
    (hv : ∀ s ∈ sts p ++ p.parameters, HasDerivAt (fun τ => ρ τ s) (v s) t)
    (hk : ∀ s ∈ p.constants, s ∉ sts p ++ p.parameters → ∀ τ, ρ τ s = ρ t s) (hsm : ∀ d ∈ p.states, Smooth U (ρ t) d.eom)
    {f : ℝ → List ℝ}
    (hf : ∀ τ, derivFunc (real U) p' ((sts p).map (ρ τ)) (p.parameters.map (ρ τ)) (p.constants.map (ρ τ)) = .ok (f τ)) :
    ∃ J A B, derivJac (real U) p' = .ok (some J) ∧
      J ((sts p).map (ρ t)) (p.parameters.map (ρ t)) (p.constants.map (ρ t)) = .ok (A, B) ∧
      ∀ i < p.states.length, HasDerivAt (fun τ => (f τ).getD i 0)
        (dot (A.getD i []) ((sts p).map v) + dot (B.getD i []) (p.parameters.map v)) t := by
  obtain ⟨rfl, hne, -, -⟩ := analytical_ok hJ hp
  have hat : ∀ τ, At (real U) { p with
      dfdy := p.states.map fun d => (sts p).map fun c => d.eom.diff c
      dfdp := p.states.map fun d => p.parameters.map fun c => d.eom.diff c } (ρ τ) ((sts p).map (ρ τ))
      (p.parameters.map (ρ τ)) (p.constants.map (ρ τ)) := fun τ =>
    ⟨map_sts _ _, rfl, rfl, Or.inl ⟨by rw [computeU]; simp only [hlaw], hlaw⟩⟩
  have hf' : ∀ τ, f τ = p.states.map fun d => eval (real U) (ρ τ) d.eom := by
    intro τ
    have h := hf τ
    have h' := atPoint_ok (real U) (hat τ) (es := p.states.map Dyn.eom) (by
      intro e he
      obtain ⟨d, hd, rfl⟩ := List.mem_map.1 he
      exact hcl d hd)
    rw [derivFunc, h'] at h
    have h2 := Except.ok.inj h
    rw [← h2, List.map_map]; rfl
  have hd1 : (p.states.map fun d => (sts p).map fun c => d.eom.diff c) ≠ [] := by simpa using hne
  have hd2 : (p.states.map fun d => p.parameters.map fun c => d.eom.diff c) ≠ [] := by simpa using hne
  have hfree : ∀ d ∈ p.states, ∀ s ∈ d.eom.free, s ∈ sts p ∨ s ∈ p.parameters ∨ s ∈ p.constants := by
    intro d hd s hs
    have := hcl d hd s hs
    simpa [hlaw] using this
  refine ⟨_, p.states.map fun d => (sts p).map fun c => eval (real U) (ρ t) (d.eom.diff c),
    p.states.map fun d => p.parameters.map fun c => eval (real U) (ρ t) (d.eom.diff c), by
    rw [derivJac, if_neg (by exact hd1), if_neg (by exact hd2)], ?_, ?_⟩
  · rw [show computeU (real U) { p with
      dfdy := p.states.map fun d => (sts p).map fun c => d.eom.diff c
      dfdp := p.states.map fun d => p.parameters.map fun c => d.eom.diff c } ((sts p).map (ρ t))
      (p.parameters.map (ρ t)) (p.constants.map (ρ t)) = .ok none by rw [computeU]; simp only [hlaw], ok_bind]
    dsimp only
    have hcl' : ∀ cols : List Name, ∀ r ∈ (p.states.map fun d => cols.map fun c => d.eom.diff c), ∀ e ∈ r, ∀ s ∈ e.free,
        s ∈ [sts p, p.parameters, p.constants].flatten := by
      intro cols r hr e he s hs
      obtain ⟨d, hd, rfl⟩ := List.mem_map.1 hr
      obtain ⟨c, -, rfl⟩ := List.mem_map.1 he
      have := hfree d hd s (mem_free_diff hs)
      simpa using this
    have e1 := lambdifyM_ok (real U) (ρ t) (args := [sts p, p.parameters, p.constants])
      (vals := [(sts p).map (ρ t), p.parameters.map (ρ t), p.constants.map (ρ t)]) rfl (hcl' (sts p))
    have e2 := lambdifyM_ok (real U) (ρ t) (args := [sts p, p.parameters, p.constants])
      (vals := [(sts p).map (ρ t), p.parameters.map (ρ t), p.constants.map (ρ t)]) rfl (hcl' p.parameters)
    have e1' : lambdifyM (real U) [sts { p with
      dfdy := p.states.map fun d => (sts p).map fun c => d.eom.diff c
      dfdp := p.states.map fun d => p.parameters.map fun c => d.eom.diff c }, p.parameters, p.constants] _ _ = _ := e1
    have e2' : lambdifyM (real U) [sts { p with
      dfdy := p.states.map fun d => (sts p).map fun c => d.eom.diff c
      dfdp := p.states.map fun d => p.parameters.map fun c => d.eom.diff c }, p.parameters, p.constants] _ _ = _ := e2
    rw [e1', ok_bind, e2', ok_bind]
    congr 2
    · rw [List.map_map]
      refine List.map_congr_left fun d _ => ?_
      simp
    · rw [List.map_map]
      refine List.map_congr_left fun d _ => ?_
      simp
  · intro i hi
    have e : ∀ {β : Type} (g : Dyn → β) (z : β), (p.states.map g).getD i z = g p.states[i] := by
      intro β g z
      simp [List.getD, List.getElem?_eq_getElem hi]
    have hfi : (fun τ => (f τ).getD i 0) = fun τ => eval (real U) (ρ τ) p.states[i].eom := by
      funext τ
      rw [hf' τ, e]
    rw [hfi, e, e]
    have hmem := List.getElem_mem hi
    have := hasDerivAt_eval (U := U) (ρ := ρ) (v := fun s => if s ∈ sts p ++ p.parameters then v s else 0) (t := t)
      hnd (e := p.states[i].eom) (by
        intro s hs
        by_cases hm : s ∈ sts p ++ p.parameters
        · rw [if_pos hm]; exact hv s hm
        · rw [if_neg hm]
          have hc : s ∈ p.constants := by
            have := hfree _ hmem s hs
            simp only [List.mem_append, not_or] at hm
            tauto
          have : (fun τ => ρ τ s) = fun _ => ρ t s := by funext τ; exact hk s hc hm τ
          rw [this]; exact hasDerivAt_const ..)
      (fun s hs => by
        by_cases hm : s ∈ sts p ++ p.parameters
        · exact Or.inl hm
        · right; rw [if_neg hm]) (hsm _ hmem)
    refine this.congr_deriv ?_
    rw [List.map_append, List.sum_append]
    congr 1
    · rw [← sum_map_dot]
      congr 1
      refine List.map_congr_left fun s hs => ?_
      rw [if_pos (List.mem_append_left _ hs)]
    · rw [← sum_map_dot]
      congr 1
      refine List.map_congr_left fun s hs => ?_
      rw [if_pos (List.mem_append_right _ hs)]

theorem closed_deriv {U : Name → Nat → ℝ → ℝ} {L K : List Name} (hnd : L.Nodup) {e : Expr}
    (hfree : ∀ s ∈ e.free, s ∈ L ∨ s ∈ K) {ρ : ℝ → Name → ℝ} {v : Name → ℝ} {t : ℝ}
    (hv : ∀ s ∈ L, HasDerivAt (fun τ => ρ τ s) (v s) t) (hk : ∀ s ∈ K, s ∉ L → ∀ τ, ρ τ s = ρ t s)
    (hsm : Smooth U (ρ t) e) :
    HasDerivAt (fun τ => eval (real U) (ρ τ) e) (dot (L.map fun c => eval (real U) (ρ t) (e.diff c)) (L.map v)) t := by
  have := hasDerivAt_eval (U := U) (ρ := ρ) (v := fun s => if s ∈ L then v s else 0) (t := t) hnd (e := e) (by
      intro s hs
      by_cases hm : s ∈ L
      · rw [if_pos hm]; exact hv s hm
      · rw [if_neg hm]
        have : (fun τ => ρ τ s) = fun _ => ρ t s := by funext τ; exact hk s ((hfree s hs).resolve_left hm) hm τ
        rw [this]; exact hasDerivAt_const ..)
    (fun s hs => by
      by_cases hm : s ∈ L
      · exact Or.inl hm
      · right; rw [if_neg hm]) hsm
  refine this.congr_deriv ?_
  rw [← sum_map_dot]
  congr 1
  refine List.map_congr_left fun s hs => ?_
  rw [if_pos hs]

theorem dot_zero {K : Type} [Field K] (b : List K) : ∀ n, dot (List.replicate n (0 : K)) b = 0 := by
  intro n
  rw [dot]
  induction b generalizing n with
  | nil => simp
  | cons x b ih =>
    cases n with
    | zero => rfl
    | succ n => simp [List.replicate_succ, ih]

theorem dot_append {K : Type} [Field K] {a b c d : List K} (h : a.length = c.length) :
    dot (a ++ b) (c ++ d) = dot a c + dot b d := by
  rw [dot, List.zipWith_append h, List.sum_append]
  rfl

theorem dot_map_append {K : Type} [Field K] (f v : Name → K) (a b : List Name) :
    dot ((a ++ b).map f) ((a ++ b).map v) = dot (a.map f) (a.map v) + dot (b.map f) (b.map v) := by
  rw [List.map_append, List.map_append, dot_append (by simp)]

/-- **C57.**  The same for the boundary conditions of a problem without algebraic control law and quadratures: the three
blocks of the compiled Jacobian are the derivatives with respect to the first state vector, the last one and the
parameters (dynamic, then those of the constraints). -/
theorem C57_boundary_partial {U : Name → Nat → ℝ → ℝ} {p : Prob} (hlaw : p.controlLaw = []) (hquad : p.quads = [])
    (hi : p.initial ≠ []) (ht : p.terminal ≠ []) (hst : p.states ≠ []) (hp : p.parameters ++ p.constraintParams ≠ [])
    (hnd : (sts p ++ (p.parameters ++ p.constraintParams)).Nodup)
    (hc0 : ∀ c ∈ p.initial, Closed p p.constraintParams c.expr) (hcf : ∀ c ∈ p.terminal, Closed p p.constraintParams c.expr)
    {ρ σ : ℝ → Name → ℝ} {v w : Name → ℝ} {t : ℝ}
    (hv : ∀ s ∈ sts p ++ (p.parameters ++ p.constraintParams), HasDerivAt (fun τ => ρ τ s) (v s) t)
    (hw : ∀ s ∈ sts p ++ (p.parameters ++ p.constraintParams), HasDerivAt (fun τ => σ τ s) (w s) t)
    (hsame : ∀ s ∈ p.parameters ++ p.constraintParams ++ p.constants, ∀ τ, ρ τ s = σ τ s)
    (hk0 : ∀ s ∈ p.constants, s ∉ sts p ++ (p.parameters ++ p.constraintParams) → ∀ τ, ρ τ s = ρ t s)
    (hkf : ∀ s ∈ p.constants, s ∉ sts p ++ (p.parameters ++ p.constraintParams) → ∀ τ, σ τ s = σ t s)
    (hsm0 : ∀ c ∈ p.initial, Smooth U (ρ t) c.expr) (hsmf : ∀ c ∈ p.terminal, Smooth U (σ t) c.expr) {f : ℝ → List ℝ}
    (hf : ∀ τ, bcFunc (real U) p ((sts p).map (ρ τ)) [] ((sts p).map (σ τ)) [] (p.parameters.map (ρ τ))
      (p.constraintParams.map (ρ τ)) (p.constants.map (ρ τ)) = .ok (f τ)) :
    ∃ J A B C, bcJac (real U) p = .ok J ∧
      J ((sts p).map (ρ t)) ((sts p).map (σ t)) (p.parameters.map (ρ t)) (p.constraintParams.map (ρ t))
        (p.constants.map (ρ t)) = .ok (A, B, C) ∧
      ∀ i < p.initial.length + p.terminal.length, HasDerivAt (fun τ => (f τ).getD i 0)
        (dot (A.getD i []) ((sts p).map v) + dot (B.getD i []) ((sts p).map w) +
          dot (C.getD i []) ((p.parameters ++ p.constraintParams).map v)) t := by
  set pars := p.parameters ++ p.constraintParams with hpars
  have hU : ∀ y pr k, computeU (real U) p y pr k = .ok none := by intro y pr k; rw [computeU]; simp only [hlaw]
  have hpσ : ∀ τ, p.parameters.map (σ τ) = p.parameters.map (ρ τ) := fun τ =>
    List.map_congr_left fun s hs => (hsame s (by simp [hpars, hs]) τ).symm
  have hcσ : ∀ τ, p.constraintParams.map (σ τ) = p.constraintParams.map (ρ τ) := fun τ =>
    List.map_congr_left fun s hs => (hsame s (by simp [hpars, hs]) τ).symm
  have hkσ : ∀ τ, p.constants.map (σ τ) = p.constants.map (ρ τ) := fun τ =>
    List.map_congr_left fun s hs => (hsame s (by simp [hs]) τ).symm
  have hqds : qds p = [] := by rw [qds, hquad]; rfl
  have hf' : ∀ τ, f τ = (p.initial.map fun c => eval (real U) (ρ τ) c.expr) ++ p.terminal.map fun c => eval (real U) (σ τ) c.expr := by
    intro τ
    have h := hf τ
    rw [C56_boundary (real U) (p := p) (ρ := ρ τ) (σ := σ τ) ⟨map_sts _ _, rfl, rfl, Or.inl ⟨hU _ _ _, hlaw⟩⟩
      ⟨map_sts _ _, hpσ τ, hkσ τ, Or.inl ⟨hU _ _ _, hlaw⟩⟩ (fun h => absurd hquad h) (fun h => absurd hquad h) rfl (hcσ τ)
      (by rw [hqds]; exact hc0) (by rw [hqds]; exact hcf)] at h
    exact (Except.ok.inj h).symm
  have hfree : ∀ cs : List Con, (∀ c ∈ cs, Closed p p.constraintParams c.expr) → ∀ c ∈ cs, ∀ s ∈ c.expr.free,
      s ∈ sts p ++ pars ∨ s ∈ p.constants := by
    intro cs hcs c hc s hs
    have := hcs c hc s hs
    simp only [hlaw, ne_eq, not_true_eq_false, false_and, or_false] at this
    simp only [hpars, List.mem_append]
    tauto
  have hLM : ∀ (cs : List Con) (cols : List Name) (η : Name → ℝ), (∀ c ∈ cs, Closed p p.constraintParams c.expr) →
      lambdifyM (real U) [sts p, p.parameters, p.constraintParams, p.constants]
        ((cs.map Con.expr).map fun r => cols.map fun c => r.diff c)
        [(sts p).map η, p.parameters.map η, p.constraintParams.map η, p.constants.map η] =
      .ok (cs.map fun r => cols.map fun c => eval (real U) η (r.expr.diff c)) := by
    intro cs cols η hcs
    have := lambdifyM_ok (real U) η (args := [sts p, p.parameters, p.constraintParams, p.constants])
      (vals := [(sts p).map η, p.parameters.map η, p.constraintParams.map η, p.constants.map η])
      (es := (cs.map Con.expr).map fun r => cols.map fun c => r.diff c) rfl (by
        intro r hr e he s hs
        obtain ⟨r', hr', rfl⟩ := List.mem_map.1 hr
        obtain ⟨c, hc, rfl⟩ := List.mem_map.1 hr'
        obtain ⟨x, -, rfl⟩ := List.mem_map.1 he
        have := hfree cs hcs c hc s (mem_free_diff hs)
        simp only [hpars, List.mem_append] at this
        simp only [List.flatten_cons, List.flatten_nil, List.append_nil, List.mem_append]
        tauto)
    rw [this, List.map_map, List.map_map]
    congr 1
    refine List.map_congr_left fun d _ => ?_
    simp
  have hjac : ∀ (cs : List Con) (cols : List Name), cs ≠ [] → cols ≠ [] → jacobian (cs.map Con.expr) cols =
      .ok ((cs.map Con.expr).map fun r => cols.map fun c => r.diff c) := by
    intro cs cols h1 h2
    rw [jacobian, if_neg (by simp [h1, h2])]
  have hst' : sts p ≠ [] := by simpa [sts] using hst
  have hbj : bcJac (real U) p = .ok (fun y0 yf pr pc k => do
    let a ← lambdifyM (real U) [sts p, p.parameters, p.constraintParams, p.constants]
      ((p.initial.map Con.expr).map fun r => (sts p).map fun c => r.diff c) [y0, pr, pc, k]
    let b ← lambdifyM (real U) [sts p, p.parameters, p.constraintParams, p.constants]
      ((p.terminal.map Con.expr).map fun r => (sts p).map fun c => r.diff c) [yf, pr, pc, k]
    let c ← lambdifyM (real U) [sts p, p.parameters, p.constraintParams, p.constants]
      ((p.initial.map Con.expr).map fun r => pars.map fun c => r.diff c) [y0, pr, pc, k]
    let d ← lambdifyM (real U) [sts p, p.parameters, p.constraintParams, p.constants]
      ((p.terminal.map Con.expr).map fun r => pars.map fun c => r.diff c) [yf, pr, pc, k]
    .ok (a ++ zeros ((p.terminal.map Con.expr).map fun r => (sts p).map fun c => r.diff c).length (sts p).length,
      zeros ((p.initial.map Con.expr).map fun r => (sts p).map fun c => r.diff c).length (sts p).length ++ b, c ++ d)) := by
    rw [bcJac, hjac _ _ hi hst', ok_bind, hjac _ _ ht hst', ok_bind]
    dsimp only
    rw [if_neg (by exact hp)]
    change (jacobian _ pars >>= _) = _
    rw [hjac _ _ hi hp, ok_bind]
    change (jacobian _ pars >>= _) = _
    rw [hjac _ _ ht hp, ok_bind]
  refine ⟨_, (p.initial.map fun r => (sts p).map fun c => eval (real U) (ρ t) (r.expr.diff c)) ++
      zeros p.terminal.length (sts p).length, zeros p.initial.length (sts p).length ++
      p.terminal.map fun r => (sts p).map fun c => eval (real U) (σ t) (r.expr.diff c),
    (p.initial.map fun r => pars.map fun c => eval (real U) (ρ t) (r.expr.diff c)) ++
      p.terminal.map fun r => pars.map fun c => eval (real U) (σ t) (r.expr.diff c), hbj, ?_, ?_⟩
  · rw [hLM p.initial (sts p) (ρ t) hc0, ok_bind]
    have e1 := hLM p.terminal (sts p) (σ t) hcf
    have e2 := hLM p.terminal pars (σ t) hcf
    rw [hpσ, hcσ, hkσ] at e1 e2
    rw [e1, ok_bind, hLM p.initial pars (ρ t) hc0, ok_bind, e2, ok_bind]
    simp
  · intro i hi'
    have hvw : pars.map w = pars.map v := by
      refine List.map_congr_left fun s hs => ?_
      have h1 := hv s (List.mem_append_right _ hs)
      have h2 := hw s (List.mem_append_right _ hs)
      have : (fun τ => ρ τ s) = fun τ => σ τ s := by funext τ; exact hsame s (List.mem_append_left _ hs) τ
      rw [this] at h1
      exact h2.unique h1
    by_cases hlt : i < p.initial.length
    · have e : ∀ {β : Type} (g : Con → β) (z : β) (l : List β), (p.initial.map g ++ l).getD i z = g p.initial[i] := by
        intro β g z l
        rw [List.getD, List.getElem?_append_left (by simpa using hlt)]
        simp [List.getElem?_eq_getElem hlt]
      have hfi : (fun τ => (f τ).getD i 0) = fun τ => eval (real U) (ρ τ) p.initial[i].expr := by
        funext τ
        rw [hf' τ, e]
      have hz : (zeros p.initial.length (sts p).length ++
          p.terminal.map fun r : Con => (sts p).map fun c => eval (real U) (σ t) (r.expr.diff c)).getD i [] =
          List.replicate (sts p).length (0 : ℝ) := by
        rw [List.getD, zeros, List.getElem?_append_left (by simpa using hlt)]
        simp [List.getElem?_replicate, hlt]
      rw [hfi, e, e, hz, dot_zero, add_zero]
      have hm := List.getElem_mem hlt
      refine (closed_deriv hnd (hfree _ hc0 _ hm) hv hk0 (hsm0 _ hm)).congr_deriv ?_
      exact dot_map_append ..
    · set j := i - p.initial.length with hj
      have hjl : j < p.terminal.length := by omega
      have e : ∀ {β : Type} (g : Con → β) (z : β) (l : List β), l.length = p.initial.length →
          (l ++ p.terminal.map g).getD i z = g p.terminal[j] := by
        intro β g z l hl
        rw [List.getD, List.getElem?_append_right (by omega), hl, ← hj]
        simp [List.getElem?_eq_getElem hjl]
      have hfi : (fun τ => (f τ).getD i 0) = fun τ => eval (real U) (σ τ) p.terminal[j].expr := by
        funext τ
        rw [hf' τ, e _ _ _ (by simp)]
      have hz : ((p.initial.map fun r : Con => (sts p).map fun c => eval (real U) (ρ t) (r.expr.diff c)) ++
          zeros p.terminal.length (sts p).length).getD i [] = List.replicate (sts p).length (0 : ℝ) := by
        rw [List.getD, zeros, List.getElem?_append_right (by simp; omega)]
        simp [List.getElem?_replicate, ← hj, hjl]
      rw [hfi, hz, e _ _ _ (by simp [zeros]), e _ _ _ (by simp), dot_zero, zero_add]
      have hm := List.getElem_mem hjl
      refine (closed_deriv hnd (hfree _ hcf _ hm) hw hkf (hsmf _ hm)).congr_deriv ?_
      rw [← hvw]
      exact dot_map_append ..

/-! ### Violations -/

/-- `x' = u` with the algebraic control law `u = x`. -/
def exJ : Prob where
  states := [⟨"x", sym "u"⟩]
  controls := ["u"]
  controlLaw := [[sym "x"]]
  parameters := ["tf"]
  initial := [{ expr := sym "x" - 1 }]
  terminal := [{ expr := sym "u" * sym "x" }]

/-- **C57 is violated** for an algebraic control law: the control is inserted *after* differentiation, so the dependence
of the control on the states is lost.  Here the right-hand side is `x` and its Jacobian is `0`; and the Jacobian of the
boundary conditions, which are compiled without the controls, cannot be evaluated at all. -/
theorem C57_violated {K : Type} [Field K] [LinearOrder K] (I : Interp K) :
    ∃ p' J Jb, analyticalJacobians exJ = .ok p' ∧ derivJac I p' = .ok (some J) ∧ bcJac I p' = .ok Jb ∧ ∀ x tf : K,
      derivFunc I p' [x] [tf] [] = .ok [x] ∧ J [x] [tf] [] = .ok ([[0]], [[0]]) ∧
      bcFunc I p' [x] [] [x] [] [tf] [] [] = .ok [x - 1, x * x] ∧ Jb [x] [x] [tf] [] [] = .error .nameError := by
  refine ⟨_, _, _, rfl, rfl, rfl, fun x tf => ?_⟩
  refine ⟨rfl, ?_, ?_, rfl⟩
  · have e : (((0 : ℚ) : K)) = 0 := by simp
    change Except.ok ([[((0 : ℚ) : K)]], [[((0 : ℚ) : K)]]) = _
    rw [e]
  · have e : eval I (fun s => (([("x", x), ("tf", tf)] : List (Name × K)).lookup s).getD 0) (sym "x" - 1) = x - 1 := by
      simp [eval]
    change Except.ok [eval I _ (sym "x" - 1), x * x] = _
    rw [← e]
    rfl

/-- **C57.**  With an algebraic control law the compiled Jacobian is the derivative of the right-hand sides with the
*control held at its chosen value*: along every curve of states and parameters that keeps the controls fixed, each
equation of motion changes at the rate `df_dy · y' + df_dp · p'`.  (What is missing is the change of the control itself,
see `C57_violated`.) -/
theorem C57_frozen_partial {U : Name → Nat → ℝ → ℝ} {p p' : Prob} (hJ : analyticalJacobians p = .ok p')
    (hp : p.parameters ≠ []) (hnd : (sts p ++ p.parameters).Nodup) (hcl : ∀ d ∈ p.states, Closed p [] d.eom)
    {ρ : ℝ → Name → ℝ} {v : Name → ℝ} {t : ℝ}
    (hu : computeU (real U) p' ((sts p).map (ρ t)) (p.parameters.map (ρ t)) (p.constants.map (ρ t)) =
      .ok (some (p.controls.map (ρ t))))
    (hv : ∀ s ∈ sts p ++ p.parameters, HasDerivAt (fun τ => ρ τ s) (v s) t)
    (hk : ∀ s ∈ p.constants ++ p.controls, s ∉ sts p ++ p.parameters → ∀ τ, ρ τ s = ρ t s)
    (hsm : ∀ d ∈ p.states, Smooth U (ρ t) d.eom) :
    ∃ J A B, derivJac (real U) p' = .ok (some J) ∧
      J ((sts p).map (ρ t)) (p.parameters.map (ρ t)) (p.constants.map (ρ t)) = .ok (A, B) ∧
      A.length = p.states.length ∧ B.length = p.states.length ∧
      ∀ i (hi : i < p.states.length), HasDerivAt (fun τ => eval (real U) (ρ τ) p.states[i].eom)
        (dot (A.getD i []) ((sts p).map v) + dot (B.getD i []) (p.parameters.map v)) t := by
  obtain ⟨rfl, hne, -, -⟩ := analytical_ok hJ hp
  have hd1 : (p.states.map fun d => (sts p).map fun c => d.eom.diff c) ≠ [] := by simpa using hne
  have hd2 : (p.states.map fun d => p.parameters.map fun c => d.eom.diff c) ≠ [] := by simpa using hne
  have hfree : ∀ d ∈ p.states, ∀ s ∈ d.eom.free, s ∈ sts p ∨ s ∈ p.parameters ∨ s ∈ p.constants ∨ s ∈ p.controls := by
    intro d hd s hs
    have := hcl d hd s hs
    simp only [List.not_mem_nil, false_or] at this
    tauto
  refine ⟨_, p.states.map fun d => (sts p).map fun c => eval (real U) (ρ t) (d.eom.diff c),
    p.states.map fun d => p.parameters.map fun c => eval (real U) (ρ t) (d.eom.diff c), by
    rw [derivJac, if_neg (by exact hd1), if_neg (by exact hd2)], ?_, by simp, by simp, ?_⟩
  · rw [hu, ok_bind]
    dsimp only
    have hcl' : ∀ cols : List Name, ∀ r ∈ (p.states.map fun d => cols.map fun c => d.eom.diff c), ∀ e ∈ r, ∀ s ∈ e.free,
        s ∈ [sts p, p.controls, p.parameters, p.constants].flatten := by
      intro cols r hr e he s hs
      obtain ⟨d, hd, rfl⟩ := List.mem_map.1 hr
      obtain ⟨c, -, rfl⟩ := List.mem_map.1 he
      have := hfree d hd s (mem_free_diff hs)
      simp only [List.flatten_cons, List.flatten_nil, List.append_nil, List.mem_append]
      tauto
    have e1 := lambdifyM_ok (real U) (ρ t) (args := [sts p, p.controls, p.parameters, p.constants])
      (vals := [(sts p).map (ρ t), p.controls.map (ρ t), p.parameters.map (ρ t), p.constants.map (ρ t)]) rfl (hcl' (sts p))
    have e2 := lambdifyM_ok (real U) (ρ t) (args := [sts p, p.controls, p.parameters, p.constants])
      (vals := [(sts p).map (ρ t), p.controls.map (ρ t), p.parameters.map (ρ t), p.constants.map (ρ t)]) rfl
      (hcl' p.parameters)
    have e1' : lambdifyM (real U) [sts { p with
      dfdy := p.states.map fun d => (sts p).map fun c => d.eom.diff c
      dfdp := p.states.map fun d => p.parameters.map fun c => d.eom.diff c }, p.controls, p.parameters, p.constants] _ _ =
        _ := e1
    have e2' : lambdifyM (real U) [sts { p with
      dfdy := p.states.map fun d => (sts p).map fun c => d.eom.diff c
      dfdp := p.states.map fun d => p.parameters.map fun c => d.eom.diff c }, p.controls, p.parameters, p.constants] _ _ =
        _ := e2
    rw [e1', ok_bind, e2', ok_bind]
    congr 2
    · rw [List.map_map]
      refine List.map_congr_left fun d _ => ?_
      simp
    · rw [List.map_map]
      refine List.map_congr_left fun d _ => ?_
      simp
  · intro i hi
    have e : ∀ {β : Type} (g : Dyn → β) (z : β), (p.states.map g).getD i z = g p.states[i] := by
      intro β g z
      simp [List.getD, List.getElem?_eq_getElem hi]
    rw [e, e]
    have hmem := List.getElem_mem hi
    refine (closed_deriv (K := p.constants ++ p.controls) hnd (e := p.states[i].eom) (fun s hs => ?_) hv hk
      (hsm _ hmem)).congr_deriv ?_
    · have := hfree _ hmem s hs
      simp only [List.mem_append]
      tauto
    · rw [List.map_append, List.map_append, dot, dot, dot, List.zipWith_append (by simp), List.sum_append]

/-- **C57 is violated** without dynamic parameters or without initial conditions: compilation raises `TypeError`. -/
theorem C57_crash {K : Type} [Field K] [LinearOrder K] (I : Interp K) (p : Prob) :
    (p.states ≠ [] → p.parameters = [] → ∀ p', analyticalJacobians p = .ok p' → derivJac I p' = .error .typeError) ∧
    (p.states ≠ [] → p.initial = [] → analyticalJacobians p = .error .typeError) := by
  constructor
  · intro hs hp p' h
    rw [analyticalJacobians] at h
    obtain ⟨J, hJ, h⟩ := bind_ok h
    obtain ⟨J0, hJ0, h⟩ := bind_ok h
    obtain ⟨J1, hJ1, h⟩ := bind_ok h
    obtain ⟨hr, -, rfl⟩ := jacobian_ok hJ
    by_cases hlen : (p.parameters ++ p.constraintParams).length > 0
    · simp only [if_pos hlen] at h
      obtain ⟨D, hD, h⟩ := bind_ok h
      exact absurd hp (jacobian_ok hD).2.1
    · simp only [if_neg hlen] at h
      have : p' = { p with
          dfdy := (p.states.map Dyn.eom).map fun r => (p.states.map Dyn.name).map fun c => r.diff c, dfdp := [] } := by
        obtain ⟨D', hD', h⟩ := bind_ok h
        cases hD'
        split at h
        · obtain ⟨_, -, h⟩ := bind_ok h
          obtain ⟨_, -, h⟩ := bind_ok h
          cases h; rfl
        · cases h; rfl
      rw [this, derivJac, if_neg (by simpa using hs), if_pos rfl]
  · intro hs hi
    rw [analyticalJacobians, jacobian, if_neg (by simpa using hs)]
    change (jacobian _ _ >>= _) = _
    rw [hi, jacobian, if_pos (by simp)]
    rfl

/-- `x' = x·u`, `u' = -u·tf` without control law. -/
def exK : Prob where
  states := [⟨"x", sym "x" * sym "u"⟩, ⟨"u", -(sym "u" * sym "tf")⟩]
  parameters := ["tf"]
  constraintParams := ["nu"]
  initial := [{ expr := sym "x" * sym "x" - sym "nu" }]
  terminal := [{ expr := sym "u" - 2 }, { expr := sym "x" * sym "tf" }]

example : ((analyticalJacobians exK >>= derivJac exI) >>= fun J => match J with
    | some J => J [2, 3] [5] []
    | none => .error .typeError) = .ok ([[3, 2], [0, -5]], [[0], [-3]]) := by decide +kernel

example : (bcJac exI exK >>= fun J => J [2, 3] [4, 7] [5] [6] []) =
    .ok ([[4, 0], [0, 0], [0, 0]], [[0, 0], [0, 1], [5, 0]], [[0, -1], [0, 0], [4, 0]]) := by decide +kernel

end Beluga.Num
