import Verif.Symbolic.Cramer

/-! # The dual problem (C27) and the symplectic formulation (C30) -/

namespace Beluga.Sym

open Expr

/-! ### C27 -/

/-- Every problem without costates of its own is turned into Hamilton's equations with the transversality conditions of
the boundary costs augmented by the boundary constraints, and the free-final-time condition. -/
theorem C27_hamilton (S : Sympy) (p : Prob) (hs : p.sympified = true) (hc : p.costates = []) (hcp : p.coparameters = [])
    (hf : LamFresh p) : ∃ p', dualize S .traditional p = .ok p' ∧ IsDual p p' := by
  refine ⟨_, dualize_traditional S p hs hc hcp, rfl, ⟨_, rfl, eval_hamiltonianOf p⟩, ?_, ?_, ?_, ⟨_, rfl, ?_⟩,
    ⟨_, _, rfl, ?_, ?_⟩, rfl, ?_⟩
  · intro s hs U ρ hsm
    have := hasPartial_H hsm ("_lam_" ++ s.name)
    rwa [diff_lam hf hs] at this
  · refine forall₂_map_right' fun x _ => ⟨rfl, fun U ρ hsm => ?_⟩
    have := hasPartial_H hsm x
    simpa using this
  · refine forall₂_map_right' fun x _ => ⟨rfl, fun U ρ hsm => ?_⟩
    have := hasPartial_H hsm x
    simpa using this
  · refine forall₂_map_right' fun x _ U ρ hsm => ?_
    have := hasPartial_end (cons := p.initial) "_nu_0_" hsm.1 hsm.2 x
    simpa [eval, lamName] using this
  · refine forall₂_map_right' fun x _ U ρ hsm => ?_
    have := hasPartial_end (cons := p.terminal) "_nu_f_" hsm.1 hsm.2 x
    simpa [eval, lamName] using this
  · intro U ρ hsm
    have := hasPartial_end (cons := p.terminal) "_nu_f_" hsm.1 hsm.2 p.ind
    simpa [eval_hamiltonianOf] using this
  · cases p; rfl

/-- Without sympification the functor refuses. -/
theorem C27_refuses (S : Sympy) (m : Method) (p : Prob) (hs : p.sympified = false) :
    dualize S m p = .error .valueError := by
  rw [dualize, hs]; rfl

/-- `x' = v`, `v' = u`, minimise `u²/2 + tf`, from `x = 0` to `x = k`, one free parameter `a` in the rate of `v`. -/
def exD : Prob where
  ind := "t"
  states := [⟨"x", sym "v"⟩, ⟨"v", sym "u" * sym "a"⟩]
  controls := ["u"]
  parameters := ["a"]
  constants := ["k"]
  initial := [{ expr := sym "x" }]
  terminal := [{ expr := sym "x" - sym "k" }]
  costPath := sym "u" * sym "u" / 2
  costTerminal := sym "t"
  sympified := true

example : LamFresh exD := ⟨by decide, by decide, by decide⟩

example : (dualize exSympy .traditional exD).map (fun p => (p.costates.map Dyn.name, p.coparameters.map Dyn.name,
    p.initial.length, p.terminal.length, p.adjoints)) =
    .ok (["_lam_x", "_lam_v"], ["_lam_a"], 4, 5, ["_nu_0_0", "_nu_f_0"]) := by decide +kernel

/-- The value of the rate of `_lam_v` is `-_lam_x`, of `_lam_a` it is `-_lam_v * u`. -/
example : (dualize exSympy .traditional exD).map (fun p => (p.costates ++ p.coparameters).map fun d =>
      eval (⟨3, fun _ x => x⟩ : Interp ℚ) (fun s => if s = "_lam_x" then 5 else if s = "_lam_v" then 7 else
        if s = "u" then 2 else 1) d.eom) = .ok [0, -5, -14] := by decide +kernel

/-! ### C30: Dualize -/

theorem setEoms_getElem? : ∀ (ds : List Dyn) (es : List Expr) (i : Nat) (h : i < es.length),
    (setEoms ds es)[i]? = ds[i]?.map fun d => { d with eom := es[i] }
  | [], es, i, h => by cases es <;> simp [setEoms]
  | d :: ds, [], i, h => by simp at h
  | d :: ds, e :: es, 0, h => by simp [setEoms]
  | d :: ds, e :: es, i + 1, h => by
    simp only [setEoms, List.getElem?_cons_succ, List.getElem_cons_succ]
    exact setEoms_getElem? ds es i (by simpa using h)

theorem setEoms_length : ∀ (ds : List Dyn) (es : List Expr), (setEoms ds es).length = ds.length
  | [], es => by cases es <;> rfl
  | d :: ds, [] => rfl
  | d :: ds, e :: es => by simp [setEoms, setEoms_length ds es]

theorem setEoms_names : ∀ (ds : List Dyn) (es : List Expr), (setEoms ds es).map Dyn.name = ds.map Dyn.name
  | [], es => by cases es <;> rfl
  | d :: ds, [] => rfl
  | d :: ds, e :: es => by simp [setEoms, setEoms_names ds es]

theorem transversality_names (cost : Expr) (sign : Expr → Expr → Expr) (syms : List Name) {a b : List Dyn}
    (h : a.map Dyn.name = b.map Dyn.name) : transversality cost sign syms a = transversality cost sign syms b := by
  have key : ∀ l : List Dyn, transversality cost sign syms l = (syms.zip (l.map Dyn.name)).map fun sl =>
      ({ expr := sign (sym sl.2) (cost.diff sl.1) } : Con) := by
    intro l
    rw [transversality, List.zip_map_right, List.map_map]; rfl
  rw [key, key, h]

/-- The result of the symplectic `Dualize`, in closed form. -/
theorem dualize_diffyg {S : Sympy} {p p' : Prob} (hs : p.sympified = true) (hc : p.costates = [])
    (hcp : p.coparameters = []) (h : dualize S .diffyg p = .ok p') :
    ∃ chi stars, vectorField S (hamiltonianOf p.costPath p.states) (standardForm (p.states.length + p.parameters.length))
        ((p.states.map Dyn.name ++ p.parameters) ++ (p.states.map Dyn.name ++ p.parameters).map lamName) = .ok chi ∧
      ∃ q, dualize S .traditional p = .ok q ∧ p' = { q with
        costates := setEoms ((p.states.map Dyn.name).map fun n => ⟨lamName n, 0⟩) (chi.drop (chi.length - p.states.length))
        coparameters := p.parameters.map fun n => ⟨lamName n, 0⟩
        omega := some (standardForm (p.states.length + p.parameters.length))
        coms := q.coms ++ stars } := by
  have ht := dualize_traditional S p hs hc hcp
  rw [dualize, if_neg (by simp [hs])] at h
  simp only [hc, hcp, List.nil_append, bind, Except.bind] at h
  rw [if_neg (by simp)] at h
  cases hv : vectorField S (hamiltonianOf p.costPath p.states) (standardForm (p.states.map Dyn.name ++ p.parameters).length)
      (p.states.map Dyn.name ++ p.parameters ++ (((p.states.map Dyn.name).map fun n => (⟨lamName n, 0⟩ : Dyn)) ++
        p.parameters.map fun n => (⟨lamName n, 0⟩ : Dyn)).map Dyn.name) with
  | error e => rw [hv] at h; cases h
  | ok chi =>
    rw [hv] at h
    simp only at h
    split at h
    · cases h
    · next r hr =>
      simp only [Except.ok.injEq] at h
      subst h
      refine ⟨chi, r.zipIdx.map fun gi => ("com_" ++ toString gi.2, gi.1), ?_, _, ht, ?_⟩
      · rw [← hv]
        simp [Function.comp_def]
      · have h2 : ∀ cost sign, transversality cost sign (p.states.map Dyn.name ++ p.parameters)
            (setEoms ((p.states.map Dyn.name).map fun n => (⟨lamName n, 0⟩ : Dyn))
              (chi.drop (chi.length - p.states.length)) ++ p.parameters.map fun n => ⟨lamName n, 0⟩) =
            (p.states.map Dyn.name ++ p.parameters).map fun n =>
              { expr := sign (sym (lamName n)) (cost.diff n) } := by
          intro cost sign
          rw [← transversality_map cost sign (names := p.states.map Dyn.name ++ p.parameters) fun _ => 0]
          apply transversality_names
          simp [setEoms_names, Function.comp_def]
        simp only [h2, setEoms_length]
        simp [Function.comp_def]

/-- The costate equations of the symplectic method: with `k` free parameters the rate of the `i`-th costate is minus the
derivative with respect to the variable `k` places *after* the `i`-th state. -/
theorem diffyg_rates {S : Sympy} (hS : LuSound S) {p p' : Prob} (hs : p.sympified = true) (hc : p.costates = [])
    (hcp : p.coparameters = []) (h : dualize S .diffyg p = .ok p') :
    p'.costates.map Dyn.name = p.states.map (fun s => lamName s.name) ∧
    p'.coparameters = p.parameters.map (fun n => ⟨lamName n, 0⟩) ∧
    ∀ i < p.states.length, ∃ l, p'.costates[i]? = some l ∧ ∀ {K : Type} [Field K] (I : Interp K) (ρ : Name → K),
      Defined I ρ l.eom → eval I ρ l.eom = -eval I ρ ((hamiltonianOf p.costPath p.states).diff
        ((p.states.map Dyn.name ++ p.parameters).getD (i + p.parameters.length) "")) := by
  obtain ⟨chi, stars, hv, q, hq, rfl⟩ := dualize_diffyg hs hc hcp h
  obtain ⟨hl, hchi⟩ := vectorField_standard hS hv (by simp; omega)
  refine ⟨by simp [setEoms_names, Function.comp_def], rfl, fun i hi => ?_⟩
  have hlt : i < (chi.drop (chi.length - p.states.length)).length := by simp; omega
  have hi' : (p.states.map Dyn.name)[i]? = some (p.states[i]).name := by simp [List.getElem?_eq_getElem hi]
  refine ⟨⟨lamName (p.states[i]).name, (chi.drop (chi.length - p.states.length))[i]⟩, ?_, fun I ρ hd => ?_⟩
  · simp only [setEoms_getElem? _ _ i hlt, List.getElem?_map, hi', Option.map_some]
  · have e1 : (chi.drop (chi.length - p.states.length))[i] =
        chi.getD ((i + p.parameters.length) + (p.states.length + p.parameters.length)) 0 := by
      rw [List.getElem_drop]
      have : chi.length - p.states.length + i =
        (i + p.parameters.length) + (p.states.length + p.parameters.length) := by omega
      simp only [this]
      rw [List.getD, List.getElem?_eq_getElem (by omega)]
      rfl
    have e2 : ((p.states.map Dyn.name ++ p.parameters) ++ (p.states.map Dyn.name ++ p.parameters).map lamName).getD
        (i + p.parameters.length) "" = (p.states.map Dyn.name ++ p.parameters).getD (i + p.parameters.length) "" := by
      rw [List.getD, List.getD, List.getElem?_append_left (by simp; omega)]
    simp only at hd ⊢
    rw [e1] at hd ⊢
    rw [(hchi I ρ (i + p.parameters.length) (by omega)).2 hd, e2]

/-- Without free parameters `Dualize` gives the same problem by either method: the same states, boundary conditions and
multipliers, and costate equations of equal value.  (With parameters see `C30_violated`; for the control equations see
`C30_differential_partial`.) -/
theorem C30_dualize_partial {S : Sympy} (hS : LuSound S) {p p' : Prob} (hs : p.sympified = true) (hc : p.costates = [])
    (hcp : p.coparameters = []) (hp : p.parameters = []) (h : dualize S .diffyg p = .ok p') :
    ∃ q, dualize S .traditional p = .ok q ∧
      { p' with costates := q.costates, omega := q.omega, coms := q.coms } = q ∧
      List.Forall₂ (fun l l' : Dyn => l.name = l'.name ∧ ∀ {K : Type} [Field K] (I : Interp K) (ρ : Name → K),
        Defined I ρ l.eom → eval I ρ l.eom = eval I ρ l'.eom) p'.costates q.costates := by
  obtain ⟨chi, stars, hv, q, hq, e⟩ := dualize_diffyg hs hc hcp h
  have hq' := dualize_traditional S p hs hc hcp
  rw [hq] at hq'
  simp only [Except.ok.injEq] at hq'
  refine ⟨q, hq, ?_, ?_⟩
  · subst e hq'
    simp [hp]
  · obtain ⟨hn, -, hr⟩ := diffyg_rates hS hs hc hcp h
    have hlen : p'.costates.length = p.states.length := by
      have := congrArg List.length hn
      simpa using this
    have hq2 : q.costates = p.states.map fun s => ⟨lamName s.name, -((hamiltonianOf p.costPath p.states).diff s.name)⟩ := by
      subst hq'; simp [Function.comp_def]
    rw [hq2]
    apply List.forall₂_iff_get.2
    refine ⟨by simp [hlen], fun i h1 h2 => ?_⟩
    have hi : i < p.states.length := by omega
    obtain ⟨l, hl, hrate⟩ := hr i hi
    have hl' : p'.costates.get ⟨i, h1⟩ = l := by
      rw [List.getElem?_eq_getElem h1] at hl
      simpa using hl
    rw [hl']
    have hname : l.name = lamName (p.states[i]).name := by
      have := congrArg (fun L => L[i]?) hn
      simp only [List.getElem?_map, hl, List.getElem?_eq_getElem hi] at this
      simpa using this
    refine ⟨by simp [hname], fun I ρ hd => ?_⟩
    rw [hrate I ρ hd]
    have e3 : (p.states.map Dyn.name ++ p.parameters).getD (i + p.parameters.length) "" = (p.states[i]).name := by
      simp [hp, List.getD, List.getElem?_eq_getElem hi]
    rw [e3]
    simp

/-- With free parameters the property is false: each costate gets the rate that belongs to a variable `k` places further,
and the costates of the parameters get rate zero. -/
theorem C30_violated {S : Sympy} (hS : LuSound S) {p p' : Prob} (hs : p.sympified = true) (hc : p.costates = [])
    (hcp : p.coparameters = []) (h : dualize S .diffyg p = .ok p') :
    (∀ l ∈ p'.coparameters, l.eom = 0) ∧
    ∀ i < p.states.length, ∃ l, p'.costates[i]? = some l ∧ ∀ {K : Type} [Field K] (I : Interp K) (ρ : Name → K),
      Defined I ρ l.eom → eval I ρ l.eom = -eval I ρ ((hamiltonianOf p.costPath p.states).diff
        ((p.states.map Dyn.name ++ p.parameters).getD (i + p.parameters.length) "")) := by
  obtain ⟨-, h1, h2⟩ := diffyg_rates hS hs hc hcp h
  refine ⟨?_, h2⟩
  rw [h1]
  intro l hl
  obtain ⟨n, -, rfl⟩ := List.mem_map.1 hl
  rfl

/-- In `exD` the two methods disagree: `[0, -5, -14]` above. -/
example : (dualize exSympy .diffyg exD).map (fun p => (p.costates ++ p.coparameters).map fun d =>
      eval (⟨3, fun _ x => x⟩ : Interp ℚ) (fun s => if s = "_lam_x" then 5 else if s = "_lam_v" then 7 else
        if s = "u" then 2 else 1) d.eom) = .ok [-5, -14, 0] := by decide +kernel

/-- Without the parameter they agree. -/
example : (dualize exSympy .diffyg { exD with parameters := [] }).map (fun p => p.costates.map fun d =>
      eval (⟨3, fun _ x => x⟩ : Interp ℚ) (fun s => if s = "_lam_x" then 5 else if s = "_lam_v" then 7 else
        if s = "u" then 2 else 1) d.eom) = .ok [0, -5] := by decide +kernel

end Beluga.Sym
