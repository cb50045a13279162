import Verif.Rename.Pipeline

/-! # The compiled functions do not depend on the names -/

namespace Beluga.Rename

open Beluga.Sym Beluga.Sym.Expr Beluga.Num Beluga.Map

variable {r : Name → Name} {K : Type} [Field K]

omit [Field K] in
theorem bindArgs_ren : ∀ (args : List (List Name)) (vals : List (List K)),
    bindArgs (args.map (List.map r)) vals = (bindArgs args vals).map (List.map fun nv => (r nv.1, nv.2))
  | [], [] => rfl
  | [], _ :: _ => rfl
  | _ :: _, [] => rfl
  | ns :: args, vs :: vals => by
    rw [List.map_cons, bindArgs, bindArgs, List.length_map]
    by_cases h : ns.length ≠ vs.length
    · rw [if_pos h, if_pos h]; rfl
    · rw [if_neg h, if_neg h, bindArgs_ren args vals]
      cases bindArgs args vals with
      | error e => rfl
      | ok env =>
        refine congrArg Except.ok ?_
        simp [List.zip_map_left]

omit [Field K] in
theorem lookup_env (hr : Function.Injective r) (s : Name) : ∀ env : List (Name × K),
    (env.map fun nv => (r nv.1, nv.2)).lookup (r s) = env.lookup s
  | [] => rfl
  | (n, v) :: env => by
    simp only [List.map_cons, List.lookup_cons]
    by_cases h : s = n
    · subst h; simp
    · have h1 : (s == n) = false := by simpa using h
      have h2 : (r s == r n) = false := by simpa using hr.ne h
      simp only [h1, h2, lookup_env hr s env]

theorem lambdify_ren (hr : Function.Injective r) (I : Interp K) (args : List (List Name)) (e : Expr) (vals : List (List K)) :
    lambdify I (args.map (List.map r)) (ren r e) vals = lambdify I args e vals := by
  rw [lambdify, lambdify, bindArgs_ren]
  cases bindArgs args vals with
  | error e => rfl
  | ok env =>
    simp only [bind, Except.bind, Except.map, free_ren, List.all_map, Function.comp_def, eval_ren, lookup_env hr]

theorem mapM_same {α β γ : Type} (f : α → β) (g : β → Py γ) (g' : α → Py γ) (h : ∀ a, g (f a) = g' a) :
    ∀ l : List α, (l.map f).mapM g = l.mapM g'
  | [] => rfl
  | a :: l => by rw [List.map_cons, List.mapM_cons, List.mapM_cons, h, mapM_same f g g' h l]

theorem lambdifyL_ren (hr : Function.Injective r) (I : Interp K) (args : List (List Name)) (es : List Expr) (vals : List (List K)) :
    lambdifyL I (args.map (List.map r)) (es.map (ren r)) vals = lambdifyL I args es vals :=
  mapM_same (ren r) _ _ (fun e => lambdify_ren hr I args e vals) es

theorem lambdifyM_ren (hr : Function.Injective r) (I : Interp K) (args : List (List Name)) (es : List (List Expr)) (vals : List (List K)) :
    lambdifyM I (args.map (List.map r)) (es.map (List.map (ren r))) vals = lambdifyM I args es vals :=
  mapM_same (List.map (ren r)) _ _ (fun e => lambdifyL_ren hr I args e vals) es

theorem sts_ren (p : Prob) : sts (renP r p) = (sts p).map r := by
  simp [sts, renP, renD, Function.comp_def]

theorem qds_ren (p : Prob) : qds (renP r p) = (qds p).map r := by
  simp [qds, renP, renD, Function.comp_def]

variable [LinearOrder K]

theorem computeU_ren (hr : Function.Injective r) (I : Interp K) (p : Prob) (y pr k : List K) :
    computeU I (renP r p) y pr k = computeU I p y pr k := by
  have a1 : [sts (renP r p), (renP r p).parameters, (renP r p).constants] = [sts p, p.parameters, p.constants].map (List.map r) := by
    rw [sts_ren]; rfl
  have a2 : [sts (renP r p), (renP r p).controls, (renP r p).parameters, (renP r p).constants] =
      [sts p, p.controls, p.parameters, p.constants].map (List.map r) := by
    rw [sts_ren]; rfl
  have a3 : (renP r p).controlLaw = p.controlLaw.map (List.map (ren r)) := rfl
  have a4 : (renP r p).hamiltonian = p.hamiltonian.map (ren r) := rfl
  rw [computeU, computeU, a1, a2, a3, a4]
  match p.controlLaw with
  | [] => rfl
  | [o] =>
    simp only [List.map_cons, List.map_nil] at *
    exact congrArg (· >>= _) (lambdifyL_ren hr I [sts p, p.parameters, p.constants] o [y, pr, k])
  | o1 :: o2 :: opts =>
    have h1 := lambdifyM_ren hr I [sts p, p.parameters, p.constants] (o1 :: o2 :: opts) [y, pr, k]
    simp only [List.map_cons] at h1 ⊢
    rw [h1]
    cases p.hamiltonian with
    | none => rfl
    | some H =>
      simp only [Option.map_some]
      congr 1
      funext us
      congr 1
      congr 1
      funext u
      congr 1
      exact lambdify_ren hr I [sts p, p.controls, p.parameters, p.constants] H [y, u, pr, k]

theorem mapperU_ren (hr : Function.Injective r) (I : Interp K) (p : Prob) (t : K) (y lam pr k : List K) :
    mapperU I (renP r p) t y lam pr k = mapperU I p t y lam pr k := by
  have a0 : (renP r p).costates.map Dyn.name = (p.costates.map Dyn.name).map r := by simp [renP, renD, Function.comp_def]
  have a1 : [[(renP r p).ind], sts (renP r p), (renP r p).costates.map Dyn.name, (renP r p).parameters, (renP r p).constants] =
      [[p.ind], sts p, p.costates.map Dyn.name, p.parameters, p.constants].map (List.map r) := by
    rw [sts_ren, a0]; rfl
  have a2 : [[(renP r p).ind], sts (renP r p), (renP r p).costates.map Dyn.name, (renP r p).controls, (renP r p).parameters,
      (renP r p).constants] =
      [[p.ind], sts p, p.costates.map Dyn.name, p.controls, p.parameters, p.constants].map (List.map r) := by
    rw [sts_ren, a0]; rfl
  have a3 : (renP r p).controlLaw = p.controlLaw.map (List.map (ren r)) := rfl
  have a4 : (renP r p).hamiltonian = p.hamiltonian.map (ren r) := rfl
  rw [mapperU, mapperU, a1, a2, a3, a4]
  match p.controlLaw with
  | [] => rfl
  | [o] => exact lambdifyL_ren hr I [[p.ind], sts p, p.costates.map Dyn.name, p.parameters, p.constants] o [[t], y, lam, pr, k]
  | o1 :: o2 :: opts =>
    have h1 := lambdifyM_ren hr I [[p.ind], sts p, p.costates.map Dyn.name, p.parameters, p.constants] (o1 :: o2 :: opts)
      [[t], y, lam, pr, k]
    simp only [List.map_cons] at h1 ⊢
    rw [h1]
    cases p.hamiltonian with
    | none => rfl
    | some H =>
      simp only [Option.map_some]
      congr 1
      funext us
      congr 1
      congr 1
      funext u
      congr 1
      exact lambdify_ren hr I [[p.ind], sts p, p.costates.map Dyn.name, p.controls, p.parameters, p.constants] H [[t], y, lam, u, pr, k]

theorem atPoint_ren (hr : Function.Injective r) (I : Interp K) (p : Prob) (es : List Expr) (y pr k : List K) :
    atPoint I (renP r p) (es.map (ren r)) y pr k = atPoint I p es y pr k := by
  rw [atPoint, atPoint, computeU_ren hr]
  congr 1
  funext u
  cases u with
  | none =>
    rw [sts_ren]
    exact lambdifyL_ren hr I [sts p, p.parameters, p.constants] es [y, pr, k]
  | some u =>
    rw [sts_ren]
    exact lambdifyL_ren hr I [sts p, p.controls, p.parameters, p.constants] es [y, u, pr, k]

theorem eoms_ren (l : List Dyn) : (l.map (renD r)).map Dyn.eom = (l.map Dyn.eom).map (ren r) := by
  simp [renD, Function.comp_def]

theorem exprs_ren (l : List Con) : (l.map (renC r)).map Con.expr = (l.map Con.expr).map (ren r) := by
  simp [renC, Function.comp_def]

theorem derivFunc_ren (hr : Function.Injective r) (I : Interp K) (p : Prob) (y pr k : List K) :
    derivFunc I (renP r p) y pr k = derivFunc I p y pr k := by
  rw [derivFunc, derivFunc, show (renP r p).states = p.states.map (renD r) from rfl, eoms_ren]
  exact atPoint_ren hr I p _ y pr k

theorem quadFunc_ren (hr : Function.Injective r) (p : Prob) : quadFunc (K := K) (renP r p) = quadFunc p := by
  rw [quadFunc, quadFunc, show (renP r p).quads = p.quads.map (renD r) from rfl, List.length_map, eoms_ren]
  by_cases h : p.quads.length > 0
  · rw [if_pos h, if_pos h]
    congr 1
    funext I y pr k
    exact atPoint_ren hr I p _ y pr k
  · rw [if_neg h, if_neg h]

theorem bcEnd_ren (hr : Function.Injective r) (I : Interp K) (p : Prob) (cs : List Con) (y q pr pc k : List K) :
    bcEnd I (renP r p) (cs.map (renC r)) y q pr pc k = bcEnd I p cs y q pr pc k := by
  rw [bcEnd, bcEnd, computeU_ren hr]
  have hq : (renP r p).quads.length = p.quads.length := by simp [renP]
  simp only [hq, sts_ren, qds_ren, exprs_ren]
  congr 1
  funext u
  by_cases h : p.quads.length > 0
  · simp only [if_pos h]
    cases u with
    | none => exact lambdifyL_ren hr I [sts p, qds p, p.parameters, p.constraintParams, p.constants] _ [y, q, pr, pc, k]
    | some u => exact lambdifyL_ren hr I [sts p, qds p, p.controls, p.parameters, p.constraintParams, p.constants] _ [y, q, u, pr, pc, k]
  · simp only [if_neg h]
    cases u with
    | none => exact lambdifyL_ren hr I [sts p, p.parameters, p.constraintParams, p.constants] _ [y, pr, pc, k]
    | some u => exact lambdifyL_ren hr I [sts p, p.controls, p.parameters, p.constraintParams, p.constants] _ [y, u, pr, pc, k]

theorem bcFunc_ren (hr : Function.Injective r) (I : Interp K) (p : Prob) (y0 q0 yf qf pr pc k : List K) :
    bcFunc I (renP r p) y0 q0 yf qf pr pc k = bcFunc I p y0 q0 yf qf pr pc k := by
  rw [bcFunc, bcFunc, show (renP r p).initial = p.initial.map (renC r) from rfl,
    show (renP r p).terminal = p.terminal.map (renC r) from rfl, bcEnd_ren hr, bcEnd_ren hr]

theorem derivJac_ren (hr : Function.Injective r) (I : Interp K) (p : Prob) : derivJac I (renP r p) = derivJac I p := by
  have h1 : ((renP r p).dfdy = []) = (p.dfdy = []) := by simp [renP]
  have h2 : ((renP r p).dfdp = []) = (p.dfdp = []) := by simp [renP]
  rw [derivJac, derivJac]
  by_cases e1 : p.dfdy = []
  · rw [if_pos e1, if_pos (by rwa [h1])]
  · rw [if_neg e1, if_neg (by rwa [h1])]
    by_cases e2 : p.dfdp = []
    · rw [if_pos e2, if_pos (by rwa [h2])]
    · rw [if_neg e2, if_neg (by rwa [h2])]
      congr 2
      funext y pr k
      rw [computeU_ren hr, sts_ren]
      congr 1
      funext u
      cases u with
      | none =>
        have a := lambdifyM_ren hr I [sts p, p.parameters, p.constants] p.dfdy [y, pr, k]
        have b := lambdifyM_ren hr I [sts p, p.parameters, p.constants] p.dfdp [y, pr, k]
        simp only [List.map_cons, List.map_nil] at a b
        simp only [renP, a, b]
      | some u =>
        have a := lambdifyM_ren hr I [sts p, p.controls, p.parameters, p.constants] p.dfdy [y, u, pr, k]
        have b := lambdifyM_ren hr I [sts p, p.controls, p.parameters, p.constants] p.dfdp [y, u, pr, k]
        simp only [List.map_cons, List.map_nil] at a b
        simp only [renP, a, b]

omit [LinearOrder K] in
theorem bcJac_ren (hr : Function.Injective r) (I : Interp K) (p : Prob) : bcJac I (renP r p) = bcJac I p := by
  have f2 : (renP r p).initial = p.initial.map (renC r) := rfl
  have f3 : (renP r p).terminal = p.terminal.map (renC r) := rfl
  have f5 : (renP r p).parameters = p.parameters.map r := rfl
  have f6 : (renP r p).constraintParams = p.constraintParams.map r := rfl
  have f7 : (renP r p).constants = p.constants.map r := rfl
  simp only [bcJac, f2, f3, f5, f6, f7, exprs_ren, sts_ren, ← List.map_append, jacobian_ren hr]
  cases jacobian (p.initial.map Con.expr) (sts p) with
  | error e => rfl
  | ok d0y =>
    cases jacobian (p.terminal.map Con.expr) (sts p) with
    | error e => rfl
    | ok dfy =>
      by_cases h : p.parameters ++ p.constraintParams = []
      · simp [h, bind, Except.bind, Except.map]
      · have h' : ¬ (p.parameters ++ p.constraintParams).map r = [] := by simpa using h
        simp only [if_neg h, if_neg h']
        cases jacobian (p.initial.map Con.expr) (p.parameters ++ p.constraintParams) with
        | error e => rfl
        | ok d0p =>
          cases jacobian (p.terminal.map Con.expr) (p.parameters ++ p.constraintParams) with
          | error e => rfl
          | ok dfp =>
            refine congrArg Except.ok ?_
            funext y0 yf pr pc k
            have key := fun es v => lambdifyM_ren hr I [sts p, p.parameters, p.constraintParams, p.constants] es [v, pr, pc, k]
            simp only [List.map_cons, List.map_nil] at key
            simp only [key, List.length_map]

omit [LinearOrder K] in
theorem computeCost_ren (hr : Function.Injective r) (rule : List K → List K → K) (I : Interp K) (p : Prob) (t : List K)
    (y qd u : Arr K) (pr k : List K) : Rep.computeCost rule I (renP r p) t y qd u pr k = Rep.computeCost rule I p t y qd u pr k := by
  have e1 : Rep.bcArgs (renP r p) = (Rep.bcArgs p).map (List.map r) := by
    simp [Rep.bcArgs, sts_ren, qds_ren]
    simp [renP]
  have e2 : Rep.dynArgs (renP r p) = (Rep.dynArgs p).map (List.map r) := by
    simp [Rep.dynArgs, sts_ren]
    simp [renP]
  have e3 : (renP r p).costInitial = ren r p.costInitial := rfl
  have e4 : (renP r p).costTerminal = ren r p.costTerminal := rfl
  have e5 : (renP r p).costPath = ren r p.costPath := rfl
  simp only [Rep.computeCost, e1, e2, e3, e4, e5, lambdify_ren hr]

end Beluga.Rename
