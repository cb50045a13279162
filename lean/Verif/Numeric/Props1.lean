import Verif.Numeric.Lemmas
import Verif.Symbolic.Follow

/-!
# The chosen control and the compiled equations (C36, C56)

A point is described by an assignment `ρ` of values to symbols; an array `y` agrees with it if
`names.map ρ = y`.
-/

set_option linter.unusedSectionVars false
set_option linter.unusedSimpArgs false

namespace Beluga.Num

open Beluga.Sym Beluga.Sym.Expr

/-! ### C36: selection between options -/

section
variable {K U : Type} [LinearOrder K]

/-- **C36.**  If no candidate has an undefined Hamiltonian, the candidate returned is the first among those with the
smallest Hamiltonian.  With no candidate there is no control. -/
theorem C36_minimal_partial (ham : U → Option K) (opts : List U) (hn : ∀ u ∈ opts, ham u ≠ none) :
    (opts = [] → select ham opts = none) ∧ (opts ≠ [] → ∃ pre w post y, opts = pre ++ w :: post ∧ select ham opts = some w ∧
      ham w = some y ∧ (∀ v ∈ pre, ∀ z, ham v = some z → y < z) ∧ ∀ v ∈ post, ∀ z, ham v = some z → y ≤ z) := by
  refine ⟨fun h => by rw [h]; rfl, fun h => ?_⟩
  match opts, h, hn with
  | [u], _, hn =>
    obtain ⟨y, hy⟩ := Option.ne_none_iff_exists'.1 (hn u (List.mem_cons_self ..))
    exact ⟨[], u, [], y, rfl, rfl, hy, by simp, by simp⟩
  | u :: v :: l, _, hn =>
    obtain ⟨x, hx⟩ := Option.ne_none_iff_exists'.1 (hn u (List.mem_cons_self ..))
    obtain ⟨pre, w, post, y, h1, h2, h3⟩ := selectGo_spec ham (v :: l) u x hx
    exact ⟨pre, w, post, y, h1, by rw [select, hx, h2], h3⟩

/-- **C36.**  The same with undefined values after the first candidate: they are passed over. -/
theorem C36_nan_partial (ham : U → Option K) (u : U) (l : List U) (hn : ham u ≠ none) :
    ∃ pre w post y, u :: l = pre ++ w :: post ∧ select ham (u :: l) = some w ∧
      ham w = some y ∧ (∀ v ∈ pre, ∀ z, ham v = some z → y < z) ∧ ∀ v ∈ post, ∀ z, ham v = some z → y ≤ z := by
  obtain ⟨x, hx⟩ := Option.ne_none_iff_exists'.1 hn
  match l with
  | [] => exact ⟨[], u, [], x, rfl, rfl, hx, by simp, by simp⟩
  | v :: l =>
    obtain ⟨pre, w, post, y, h1, h2, h3⟩ := selectGo_spec ham (v :: l) u x hx
    exact ⟨pre, w, post, y, h1, by rw [select, hx, h2], h3⟩

/-- **C36 is violated.**  If the *first* candidate has an undefined Hamiltonian it is returned, whatever the others
have. -/
theorem C36_violated (ham : U → Option K) (u : U) (l : List U) (hu : ham u = none) : select ham (u :: l) = some u := by
  match l with
  | [] => rfl
  | v :: l => rw [select, hu, selectGo_nan]

example : select (fun n : ℤ => some ((n - 3) ^ 2)) [7, 4, 2, 3, 3] = some 3 := by decide +kernel

example : select (fun n : Int × ℤ => some ((n.1 - 3) ^ 2)) [(7, 0), (4, 1), (2, 2), (9, 3)] = some (4, 1) := by decide +kernel

/-- An undefined first candidate hides a better second one. -/
example : select (fun n : ℤ => if n = 0 then none else some n) [0, 1, -5] = some 0 ∧
    select (fun n : ℤ => if n = 0 then none else some n) [1, 0, -5] = some (-5) := by decide +kernel

end

/-! ### The compiled control -/

section
variable {K : Type} [Field K] [LinearOrder K]

/-- Every symbol that the control options and the Hamiltonian use is an argument of the compiled functions. -/
structure ControlClosed (p : Prob) : Prop where
  law : ∀ o ∈ p.controlLaw, ∀ e ∈ o, ∀ s ∈ e.free, s ∈ sts p ++ p.parameters ++ p.constants
  ham : ∃ H, p.hamiltonian = some H ∧ ∀ s ∈ H.free, s ∈ sts p ++ p.controls ++ p.parameters ++ p.constants
  size : ∀ o ∈ p.controlLaw, o.length = p.controls.length

/-- The points with the same states, parameters and constants, and any control. -/
structure Family (p : Prob) (ρ : Name → K) (σ : List K → Name → K) : Prop where
  control : ∀ u, u.length = p.controls.length → p.controls.map (σ u) = u
  rest : ∀ u, ∀ s ∈ sts p ++ p.parameters ++ p.constants, σ u s = ρ s

theorem map_eq {p : Prob} {ρ : Name → K} {σ : List K → Name → K} (hσ : Family p ρ σ) (u : List K) :
    (sts p).map (σ u) = (sts p).map ρ ∧ p.parameters.map (σ u) = p.parameters.map ρ ∧
      p.constants.map (σ u) = p.constants.map ρ :=
  ⟨List.map_congr_left fun s hs => hσ.rest u s (by simp [hs]), List.map_congr_left fun s hs => hσ.rest u s (by simp [hs]),
    List.map_congr_left fun s hs => hσ.rest u s (by simp [hs])⟩

theorem computeU_ok (I : Interp K) {p : Prob} (hp : ControlClosed p) {H : Expr} (hH : p.hamiltonian = some H)
    {ρ : Name → K} {σ : List K → Name → K} (hσ : Family p ρ σ) :
    computeU I p ((sts p).map ρ) (p.parameters.map ρ) (p.constants.map ρ) =
      .ok (select (fun u => some (eval I (σ u) H)) (p.controlLaw.map fun o => o.map (eval I ρ))) := by
  have hlaw : ∀ o ∈ p.controlLaw, ∀ e ∈ o, ∀ s ∈ e.free, s ∈ [sts p, p.parameters, p.constants].flatten := by
    intro o ho e he s hs
    have := hp.law o ho e he s hs
    simpa [or_assoc] using this
  have hham : ∀ s ∈ H.free, s ∈ [sts p, p.controls, p.parameters, p.constants].flatten := by
    obtain ⟨H', h1, h2⟩ := hp.ham
    rw [hH] at h1; cases h1
    intro s hs
    have := h2 s hs
    simpa [or_assoc] using this
  rw [computeU]
  match hl : p.controlLaw with
  | [] => rfl
  | [o] =>
    dsimp only
    have hL : lambdifyL I [sts p, p.parameters, p.constants] o [(sts p).map ρ, p.parameters.map ρ, p.constants.map ρ] =
        .ok (o.map (eval I ρ)) := lambdifyL_ok I ρ rfl (hlaw o (by simp [hl]))
    rw [hL]
    rfl
  | o :: o' :: rest =>
    dsimp only
    have hL : lambdifyM I [sts p, p.parameters, p.constants] p.controlLaw
        [(sts p).map ρ, p.parameters.map ρ, p.constants.map ρ] = .ok (p.controlLaw.map fun r => r.map (eval I ρ)) :=
      lambdifyM_ok I ρ rfl hlaw
    rw [hl] at hL
    rw [hL, hH, ok_bind]
    dsimp only
    rw [mapM_ok (g := fun u => (u, eval I (σ u) H))]
    · change Except.ok _ = _
      rw [select_map (fun u => (u, eval I (σ u) H)) (fun uh : List K × K => some uh.2)]
      congr 1
    · intro u hu
      obtain ⟨o'', ho, rfl⟩ := List.mem_map.1 hu
      obtain ⟨h1, h2, h3⟩ := map_eq hσ (o''.map (eval I ρ))
      rw [lambdify_ok I (σ (o''.map (eval I ρ))) ?_ hham]
      · rfl
      · simp only [List.map_cons, List.map_nil, h1, h2, h3]
        rw [hσ.control _ (by rw [List.length_map]; exact hp.size _ (by rw [hl]; exact ho))]

/-- **C36.**  The compiled control is the value of one of the options of the control law, and no option has a smaller
Hamiltonian at this point. -/
theorem C36_compiled_partial (I : Interp K) {p : Prob} (hp : ControlClosed p) {H : Expr} (hH : p.hamiltonian = some H)
    {ρ : Name → K} {σ : List K → Name → K} (hσ : Family p ρ σ) (hne : p.controlLaw ≠ []) :
    ∃ u, computeU I p ((sts p).map ρ) (p.parameters.map ρ) (p.constants.map ρ) = .ok (some u) ∧
      (∃ o ∈ p.controlLaw, u = o.map (eval I ρ)) ∧
      ∀ o ∈ p.controlLaw, eval I (σ u) H ≤ eval I (σ (o.map (eval I ρ))) H := by
  obtain ⟨pre, w, post, y, h1, h2, h3, h4, h5⟩ := (C36_minimal_partial (fun u => some (eval I (σ u) H))
    (p.controlLaw.map fun o => o.map (eval I ρ)) (by simp)).2 (by simpa using hne)
  refine ⟨w, by rw [computeU_ok I hp hH hσ, h2], ?_, fun o ho => ?_⟩
  · have : w ∈ p.controlLaw.map fun o => o.map (eval I ρ) := by rw [h1]; simp
    obtain ⟨o, ho, rfl⟩ := List.mem_map.1 this
    exact ⟨o, ho, rfl⟩
  · have : o.map (eval I ρ) ∈ p.controlLaw.map fun o => o.map (eval I ρ) := List.mem_map_of_mem ho
    rw [h1] at this
    cases h3
    rcases List.mem_append.1 this with h | h
    · exact (h4 _ h _ rfl).le
    · rcases List.mem_cons.1 h with h | h
      · rw [h]
      · exact h5 _ h _ rfl

theorem mapperU_ok (I : Interp K) {p : Prob} {H : Expr} (hH : p.hamiltonian = some H) (hne : p.controlLaw ≠ [])
    (hlaw : ∀ o ∈ p.controlLaw, ∀ e ∈ o, ∀ s ∈ e.free,
      s ∈ [p.ind] ++ sts p ++ p.costates.map Dyn.name ++ p.parameters ++ p.constants)
    (hham : ∀ s ∈ H.free, s ∈ [p.ind] ++ sts p ++ p.costates.map Dyn.name ++ p.controls ++ p.parameters ++ p.constants)
    (hsize : ∀ o ∈ p.controlLaw, o.length = p.controls.length) {ρ : Name → K} {σ : List K → Name → K}
    (hc : ∀ u, u.length = p.controls.length → p.controls.map (σ u) = u)
    (hr : ∀ u, ∀ s ∈ [p.ind] ++ sts p ++ p.costates.map Dyn.name ++ p.parameters ++ p.constants, σ u s = ρ s) :
    ∃ u, mapperU I p (ρ p.ind) ((sts p).map ρ) ((p.costates.map Dyn.name).map ρ) (p.parameters.map ρ) (p.constants.map ρ) =
        .ok u ∧ select (fun u => some (eval I (σ u) H)) (p.controlLaw.map fun o => o.map (eval I ρ)) = some u := by
  have hlaw' : ∀ o ∈ p.controlLaw, ∀ e ∈ o, ∀ s ∈ e.free,
      s ∈ [[p.ind], sts p, p.costates.map Dyn.name, p.parameters, p.constants].flatten := by
    intro o ho e he s hs
    have := hlaw o ho e he s hs
    simpa [or_assoc] using this
  have hham' : ∀ s ∈ H.free, s ∈ [[p.ind], sts p, p.costates.map Dyn.name, p.controls, p.parameters, p.constants].flatten := by
    intro s hs
    have := hham s hs
    simpa [or_assoc] using this
  rw [mapperU]
  match hl : p.controlLaw with
  | [] => exact absurd hl hne
  | [o] =>
    dsimp only
    exact ⟨_, lambdifyL_ok I ρ rfl (hlaw' o (by simp [hl])), rfl⟩
  | o :: o' :: rest =>
    dsimp only
    have hL : lambdifyM I [[p.ind], sts p, p.costates.map Dyn.name, p.parameters, p.constants] p.controlLaw
        [[ρ p.ind], (sts p).map ρ, (p.costates.map Dyn.name).map ρ, p.parameters.map ρ, p.constants.map ρ] =
        .ok (p.controlLaw.map fun r => r.map (eval I ρ)) := lambdifyM_ok I ρ rfl hlaw'
    rw [hl] at hL
    rw [hL, hH]
    have hm : ((o :: o' :: rest).map fun r => r.map (eval I ρ)).mapM (fun u => (do
        let h ← lambdify I [[p.ind], sts p, p.costates.map Dyn.name, p.controls, p.parameters, p.constants] H
          [[ρ p.ind], (sts p).map ρ, (p.costates.map Dyn.name).map ρ, u, p.parameters.map ρ, p.constants.map ρ]
        .ok (u, h) : Py (List K × K))) = .ok (((o :: o' :: rest).map fun r => r.map (eval I ρ)).map
          fun u => (u, eval I (σ u) H)) := by
      refine mapM_ok fun u hu => ?_
      obtain ⟨o'', ho, rfl⟩ := List.mem_map.1 hu
      rw [lambdify_ok I (σ (o''.map (eval I ρ))) ?_ hham']
      · rfl
      · have hr' := hr (o''.map (eval I ρ))
        simp only [List.map_cons, List.map_nil]
        rw [hc _ (by rw [List.length_map]; exact hsize _ (by rw [hl]; exact ho)),
          List.map_congr_left (l := sts p) (g := ρ) (fun s hs => hr' s (by simp [hs])),
          List.map_congr_left (l := p.costates.map Dyn.name) (g := ρ) (fun s hs => hr' s (by simp only [List.mem_append]; tauto)),
          List.map_congr_left (l := p.parameters) (g := ρ) (fun s hs => hr' s (by simp [hs])),
          List.map_congr_left (l := p.constants) (g := ρ) (fun s hs => hr' s (by simp [hs])), hr' p.ind (by simp)]
    rw [ok_bind]
    dsimp only
    rw [hm, ok_bind, select_map (fun u => (u, eval I (σ u) H)) (fun uh : List K × K => some uh.2)]
    dsimp only
    rw [List.map_cons, List.map_cons, select]
    exact ⟨_, rfl, rfl⟩

/-- **C36.**  The control that `AlgebraicControlMapper` reports to the user (from the problem before
`SquashToBVP`) is the control that the compiled equations of the squashed problem use. -/
theorem C36_reported_partial (I : Interp K) {p q : Prob} (hq : squash p = .ok q) {H : Expr} (hH : p.hamiltonian = some H)
    (hne : p.controlLaw ≠ [])
    (hlaw : ∀ o ∈ p.controlLaw, ∀ e ∈ o, ∀ s ∈ e.free, s ∈ sts p ++ p.costates.map Dyn.name ++ p.parameters ++ p.constants)
    (hham : ∀ s ∈ H.free, s ∈ sts p ++ p.costates.map Dyn.name ++ p.controls ++ p.parameters ++ p.constants)
    (hsize : ∀ o ∈ p.controlLaw, o.length = p.controls.length)
    {ρ : Name → K} {σ : List K → Name → K} (hc : ∀ u, u.length = p.controls.length → p.controls.map (σ u) = u)
    (hr : ∀ u, ∀ s ∈ [p.ind] ++ sts p ++ p.costates.map Dyn.name ++ p.parameters ++ p.constants, σ u s = ρ s) :
    ∃ u, mapperU I p (ρ p.ind) ((sts p).map ρ) ((p.costates.map Dyn.name).map ρ) (p.parameters.map ρ) (p.constants.map ρ) =
        .ok u ∧
      computeU I q ((sts p).map ρ ++ (p.costates.map Dyn.name).map ρ) (p.parameters.map ρ) (p.constants.map ρ) =
        .ok (some u) := by
  obtain ⟨u, h1, h2⟩ := mapperU_ok I hH hne (fun o ho e he s hs => by
      have := hlaw o ho e he s hs
      simp only [List.mem_append] at this ⊢
      tauto) (fun s hs => by
      have := hham s hs
      simp only [List.mem_append] at this ⊢
      tauto) hsize hc hr
  refine ⟨u, h1, ?_⟩
  rw [squash] at hq
  cases hq
  have hs : (sts p).map ρ ++ (p.costates.map Dyn.name).map ρ = (p.states ++ p.costates).map (fun d => ρ d.name) := by
    simp [sts, List.map_map, Function.comp_def]
  have := computeU_ok I (p := { p with
    states := p.states ++ p.costates
    costates := []
    quads := p.quads ++ p.coparameters
    coparameters := []
    constraintParams := p.constraintParams ++ p.adjoints
    adjoints := []
    chain := p.chain ++ [.squash p.states.length (p.states.length + p.costates.length)
      p.quads.length (p.quads.length + p.coparameters.length) (p.constraintParams ++ p.adjoints).length
      ((p.constraintParams ++ p.adjoints).length + p.adjoints.length)]
    dualized := false }) (ρ := ρ) (σ := σ) ⟨by simpa [sts] using hlaw, ⟨H, hH, by simpa [sts] using hham⟩, hsize⟩ hH
    ⟨hc, fun u s hs => hr u s (by
      simp only [sts, List.map_append, List.mem_append] at hs ⊢
      tauto)⟩
  rw [hs]
  rw [h2] at this
  simpa [sts, List.map_map, Function.comp_def] using this

/-! ### C56: compiled functions evaluate the symbolic equations -/

/-- The point at which the equations are evaluated: states, parameters and constants from the arrays, the controls, if
there is a control law, from the compiled control. -/
structure At (I : Interp K) (p : Prob) (ρ : Name → K) (y pr k : List K) : Prop where
  states : p.states.map (fun d => ρ d.name) = y
  pars : p.parameters.map ρ = pr
  consts : p.constants.map ρ = k
  control : (computeU I p y pr k = .ok none ∧ p.controlLaw = []) ∨ computeU I p y pr k = .ok (some (p.controls.map ρ))

/-- Every symbol of the expression is a state, a parameter, a constant, one of `extra`, or, if there is a control law,
a control. -/
def Closed (p : Prob) (extra : List Name) (e : Expr) : Prop :=
  ∀ s ∈ e.free, s ∈ sts p ∨ s ∈ p.parameters ∨ s ∈ p.constants ∨ s ∈ extra ∨ (p.controlLaw ≠ [] ∧ s ∈ p.controls)

theorem map_sts (p : Prob) (ρ : Name → K) : p.states.map (fun d => ρ d.name) = (sts p).map ρ := by
  rw [sts, List.map_map]
  rfl

theorem At.sts {I : Interp K} {p : Prob} {ρ : Name → K} {y pr k : List K} (h : At I p ρ y pr k) : (Num.sts p).map ρ = y := by
  rw [Num.sts, List.map_map]
  exact h.states

theorem atPoint_ok (I : Interp K) {p : Prob} {ρ : Name → K} {y pr k : List K} (h : At I p ρ y pr k) {es : List Expr}
    (hc : ∀ e ∈ es, Closed p [] e) : atPoint I p es y pr k = .ok (es.map (eval I ρ)) := by
  rw [atPoint]
  rcases h.control with ⟨hu, hl⟩ | hu
  · rw [hu, ok_bind]
    refine lambdifyL_ok I ρ (by simp [h.sts, h.pars, h.consts]) fun e he s hs => ?_
    have := hc e he s hs
    simp only [hl, ne_eq, not_true_eq_false, false_and, or_false, List.not_mem_nil] at this
    simpa using this
  · rw [hu, ok_bind]
    refine lambdifyL_ok I ρ (by simp [h.sts, h.pars, h.consts]) fun e he s hs => ?_
    have := hc e he s hs
    simp only [List.not_mem_nil, false_or] at this
    simp only [List.flatten_cons, List.flatten_nil, List.append_nil, List.mem_append]
    tauto

/-- **C56.**  The compiled derivative (and quadrature) functions return, in the order of declaration, the values of the
right-hand sides at the point given by the arrays, with the compiled control inserted. -/
theorem C56_derivative (I : Interp K) {p : Prob} {ρ : Name → K} {y pr k : List K} (h : At I p ρ y pr k)
    (hs : ∀ d ∈ p.states, Closed p [] d.eom) (hq : ∀ d ∈ p.quads, Closed p [] d.eom) :
    derivFunc I p y pr k = .ok (p.states.map fun d => eval I ρ d.eom) ∧
    (p.quads = [] → (quadFunc p : Option (Interp K → _)) = none) ∧
    (p.quads ≠ [] → ∃ f, quadFunc p = some f ∧ f I y pr k = .ok (p.quads.map fun d => eval I ρ d.eom)) := by
  refine ⟨?_, fun hq => by rw [quadFunc, hq]; rfl, fun hne => ⟨_, by
    rw [quadFunc, if_pos (by rw [gt_iff_lt, List.length_pos_iff]; exact hne)], ?_⟩⟩
  · rw [derivFunc, atPoint_ok I h (by simpa using hs), List.map_map]
    rfl
  · rw [atPoint_ok I h (by simpa using hq), List.map_map]
    rfl

/-- **C56.**  The control that is inserted: without a control law none, with one option of the law the values of its expressions in the
order of the controls.  (Several options: C36.) -/
theorem C56_control (I : Interp K) {p : Prob} {ρ : Name → K} {y pr k : List K} (hy : p.states.map (fun d => ρ d.name) = y)
    (hp : p.parameters.map ρ = pr) (hk : p.constants.map ρ = k)
    (h : p.controlLaw = [] ∨ ∃ o, p.controlLaw = [o] ∧ p.controls.map ρ = o.map (eval I ρ) ∧
      ∀ e ∈ o, ∀ s ∈ e.free, s ∈ p.states.map Dyn.name ∨ s ∈ p.parameters ∨ s ∈ p.constants) : At I p ρ y pr k := by
  have hy' : (sts p).map ρ = y := by rw [sts, List.map_map]; exact hy
  refine ⟨hy, hp, hk, ?_⟩
  rcases h with h | ⟨o, h, he, hc⟩
  · exact Or.inl ⟨by rw [computeU, h], h⟩
  · right
    rw [computeU, h]
    dsimp only
    rw [lambdifyL_ok I ρ (by simp [hy', hp, hk]) fun e hm s hs => by simpa [sts] using hc e hm s hs, ok_bind, he]

theorem bcEnd_ok (I : Interp K) {p : Prob} {ρ : Name → K} {y q pr pc k : List K} (h : At I p ρ y pr k)
    (hq : p.quads ≠ [] → (qds p).map ρ = q) (hpc : p.constraintParams.map ρ = pc) {cs : List Con}
    (hc : ∀ c ∈ cs, Closed p (qds p ++ p.constraintParams) c.expr) :
    bcEnd I p cs y q pr pc k = .ok (cs.map fun c => eval I ρ c.expr) := by
  have hm : (cs.map fun c => eval I ρ c.expr) = (cs.map Con.expr).map (eval I ρ) := by rw [List.map_map]; rfl
  have hqn : p.quads = [] → qds p = [] := fun h => by rw [qds, h]; rfl
  rw [bcEnd, hm]
  by_cases hne : p.quads = []
  · rw [hqn hne, List.nil_append] at hc
    rw [if_neg (by simp [hne])]
    rcases h.control with ⟨hu, hl⟩ | hu
    · rw [hu, ok_bind]
      refine lambdifyL_ok I ρ (by simp [h.sts, h.pars, h.consts, hpc]) fun e he s hs => ?_
      obtain ⟨c, hcm, rfl⟩ := List.mem_map.1 he
      have := hc c hcm s hs
      simp only [hl, ne_eq, not_true_eq_false, false_and, or_false] at this
      simp only [List.append_nil, List.map_append, List.map_cons, List.map_nil, List.flatten_append, List.flatten_cons,
        List.flatten_nil, List.mem_append, List.singleton_append]
      tauto
    · rw [hu, ok_bind]
      refine lambdifyL_ok I ρ (by simp [h.sts, h.pars, h.consts, hpc]) fun e he s hs => ?_
      obtain ⟨c, hcm, rfl⟩ := List.mem_map.1 he
      have := hc c hcm s hs
      simp only [List.append_nil, List.map_append, List.map_cons, List.map_nil, List.flatten_append, List.flatten_cons,
        List.flatten_nil, List.mem_append, List.singleton_append]
      tauto
  · rw [if_pos (by rw [gt_iff_lt, List.length_pos_iff]; exact hne)]
    rcases h.control with ⟨hu, hl⟩ | hu
    · rw [hu, ok_bind]
      refine lambdifyL_ok I ρ (by simp [h.sts, h.pars, h.consts, hpc, hq hne]) fun e he s hs => ?_
      obtain ⟨c, hcm, rfl⟩ := List.mem_map.1 he
      have := hc c hcm s hs
      simp only [hl, ne_eq, not_true_eq_false, false_and, or_false, List.mem_append] at this
      simp only [List.append_nil, List.map_append, List.map_cons, List.map_nil, List.flatten_append, List.flatten_cons,
        List.flatten_nil, List.mem_append, List.singleton_append]
      tauto
    · rw [hu, ok_bind]
      refine lambdifyL_ok I ρ (by simp [h.sts, h.pars, h.consts, hpc, hq hne]) fun e he s hs => ?_
      obtain ⟨c, hcm, rfl⟩ := List.mem_map.1 he
      have := hc c hcm s hs
      simp only [List.mem_append] at this
      simp only [List.append_nil, List.map_append, List.map_cons, List.map_nil, List.flatten_append, List.flatten_cons,
        List.flatten_nil, List.mem_append, List.singleton_append]
      tauto

/-- **C56.**  The compiled boundary function returns the values of the initial conditions at the first point followed by
those of the terminal conditions at the last point. -/
theorem C56_boundary (I : Interp K) {p : Prob} {ρ σ : Name → K} {y0 q0 yf qf pr pc k : List K} (h0 : At I p ρ y0 pr k)
    (hf : At I p σ yf pr k) (hq0 : p.quads ≠ [] → (qds p).map ρ = q0) (hqf : p.quads ≠ [] → (qds p).map σ = qf)
    (hpc0 : p.constraintParams.map ρ = pc) (hpcf : p.constraintParams.map σ = pc)
    (hc0 : ∀ c ∈ p.initial, Closed p (qds p ++ p.constraintParams) c.expr)
    (hcf : ∀ c ∈ p.terminal, Closed p (qds p ++ p.constraintParams) c.expr) :
    bcFunc I p y0 q0 yf qf pr pc k =
      .ok ((p.initial.map fun c => eval I ρ c.expr) ++ p.terminal.map fun c => eval I σ c.expr) := by
  rw [bcFunc, bcEnd_ok I h0 hq0 hpc0 hc0, bcEnd_ok I hf hqf hpcf hcf]
  rfl

/-- A problem with two control options. -/
def exU : Prob where
  states := [⟨"x", sym "u" * sym "c"⟩, ⟨"l", -sym "x"⟩]
  controls := ["u"]
  controlLaw := [[sym "l"], [-sym "l" - sym "x"]]
  hamiltonian := some (sym "u" * sym "u" - sym "x" * sym "u")
  constants := ["c"]
  initial := [{ expr := sym "x" - 1 }]
  terminal := [{ expr := sym "u" - sym "c" }, { expr := sym "l" }]

def exI : Interp ℚ := ⟨3, fun _ x => x⟩

/-- Hamiltonians at `x = 1, l = 2`: 2 for `u = 2`, 12 for `u = -3`. -/
example : computeU exI exU [1, 2] [] [5] = .ok (some [2]) := by decide +kernel

/-- At `x = 3, l = -2`: 10 for `u = -2`, 4 for `u = -1`. -/
example : computeU exI exU [3, -2] [] [5] = .ok (some [-1]) := by decide +kernel

example : derivFunc exI exU [3, -2] [] [5] = .ok [-5, -3] := by decide +kernel

example : bcFunc exI exU [1, 2] [] [3, -2] [] [] [] [5] = .ok [0, -6, -2] := by decide +kernel

/-- Without a control law the control is an unknown name; a short array is refused. -/
example : derivFunc exI { exU with controlLaw := [] } [3, -2] [] [5] = .error .nameError ∧
    derivFunc exI exU [3] [] [5] = .error .valueError := by decide +kernel

end

end Beluga.Num
