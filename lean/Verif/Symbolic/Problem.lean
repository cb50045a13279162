import Verif.Py
import Verif.Symbolic.Expr

/-!
# Model of `Problem` and of the functors that transform it

`beluga/symbolic/data_classes/symbolic_problem.py`, `components_structures.py` and `mapping_functions.py`.  A functor
mutates the problem it is given and returns it, or raises; here it is a function `Prob → Py Prob`.  Units are not
modelled (the `units` declared by `Problem.scale` are, because `subs_all` rewrites them).  What sympy computes by
algorithms that beluga does not contain (`solve`, `LUsolve`, `integrate`) is a parameter, the record `Sympy`.
-/

namespace Beluga.Sym

open Expr

/-- `DynamicStruct` (components_structures.py:80-95). -/
structure Dyn where
  name : Name
  eom : Expr
  deriving DecidableEq

/-- `DynamicStruct.subs_self` (components_structures.py:91-95). -/
def Dyn.subs (x : Name) (e : Expr) (d : Dyn) : Dyn := { d with eom := Expr.subs x e d.eom }

/-- The value of `constraint.method.lower()` (mapping_functions.py:194, 238, 877-879). -/
inductive Meth where
  | utm | epstrig | other
  deriving DecidableEq

/-- `ConstraintStruct` (components_structures.py:310-341), and the `DimensionalExpressionStruct`s that the functors
append to the constraint lists (no bounds). -/
structure Con where
  expr : Expr
  lower : Option Expr := none
  upper : Option Expr := none
  activator : Option Expr := none
  method : Meth := .utm
  deriving DecidableEq

/-- `ConstraintStruct.subs_self` (components_structures.py:325-331): the activator is not substituted. -/
def Con.subs (x : Name) (e : Expr) (c : Con) : Con :=
  { c with expr := Expr.subs x e c.expr, lower := c.lower.map (Expr.subs x e), upper := c.upper.map (Expr.subs x e) }

/-- Both bounds are given (mapping_functions.py:237, 244, 251, 879-880). -/
def Con.twoSided (c : Con) : Bool := c.lower.isSome && c.upper.isSome

/-- `NamedExpressionStruct` (components_structures.py:98-130): `cached` is `free_symbols`, set by `sympify_self`. -/
structure Quantity where
  name : Name
  expr : Expr
  cached : List Name := []
  deriving DecidableEq

/-- `ExpressionStruct.sympify_self` (components_structures.py:104-108). -/
def Quantity.sympify (q : Quantity) : Quantity := { q with cached := q.expr.free }

/-- `ExpressionStruct.subs_self` (components_structures.py:113-116): sympy expressions have no attribute `subs_self`,
so `sympify_self` always runs first, and `free_symbols` describes the expression before the substitution. -/
def Quantity.subs (x : Name) (e : Expr) (q : Quantity) : Quantity :=
  { q with cached := q.expr.free, expr := Expr.subs x e q.expr }

/-- `SwitchStruct` (components_structures.py:260-289). -/
structure Switch where
  name : Name
  functions : List Expr
  conditions : List (List Expr)
  tol : Expr
  symFunc : Expr := 0
  deriving DecidableEq

/-- The inner loop of `SwitchStruct.sympify_self` (components_structures.py:277-279). -/
def rashsMult (tol : Expr) (conds : List Expr) : Expr :=
  conds.foldl (fun acc c => acc + 1 / (1 + fn .exp (c / tol))) 0

/-- The switching function (components_structures.py:274-281). -/
def rashsFunc (tol : Expr) (functions : List Expr) (conditions : List (List Expr)) : Expr :=
  (functions.zip conditions).foldl (fun acc fc => acc + rashsMult tol fc.2 * fc.1) 0

/-- `SwitchStruct.sympify_self` (components_structures.py:268-283). -/
def Switch.sympify (s : Switch) : Switch := { s with symFunc := rashsFunc s.tol s.functions s.conditions }

/-- `SwitchStruct.subs_self` after `sympify_self` (components_structures.py:285-288). -/
def Switch.subs (x : Name) (e : Expr) (s : Switch) : Switch := { s with symFunc := Expr.subs x e s.symFunc }

/-- The mappers appended to `sol_map_chain`, with the indices they are given (trajectory_mappers.py:28-366). -/
inductive MapTag where
  | identity
  | momentumShift (idx : Nat)
  | epsTrig (idx : Nat) (lower upper : Expr) (ind : Name) (states params consts : List Name)
  | dualize (nCostates nAdjoints : Nat)
  | algebraic
  | differential (idxs : List Nat)
  | differentialDiffyG (idxs : List Nat)
  | mf
  | squash (coStart coStop copStart copStop adjStart adjStop : Nat)
  | normalizeTime (idx : Nat)
  deriving DecidableEq

/-- `Problem` (symbolic_problem.py:11-66). -/
structure Prob where
  ind : Name := "_t"
  states : List Dyn := []
  costates : List Dyn := []
  parameters : List Name := []
  coparameters : List Dyn := []
  controls : List Name := []
  controlLaw : List (List Expr) := []
  initial : List Con := []
  path : List Con := []
  terminal : List Con := []
  constraintParams : List Name := []
  adjoints : List Name := []
  costInitial : Expr := 0
  costPath : Expr := 0
  costTerminal : Expr := 0
  constants : List Name := []
  quantities : List Quantity := []
  switches : List Switch := []
  hamiltonian : Option Expr := none
  dhdu : List Expr := []
  quads : List Dyn := []
  symmetries : List (List Expr) := []
  coms : List (Name × Expr) := []
  units : List (Name × Expr) := []
  omega : Option (List (List Expr)) := none
  dfdy : List (List Expr) := []
  dfdp : List (List Expr) := []
  chain : List MapTag := []
  sympified : Bool := false
  dualized : Bool := false
  deriving DecidableEq

namespace Prob

/-- `Problem.sympify_self` (symbolic_problem.py:260-295) with `check_sufficient_problem` (297-305): strings become
expressions (here they already are), switches and cached symbol sets are computed. -/
def sympify (p : Prob) : Py Prob :=
  if p.states.length < 1 then .error .runtimeError
  else .ok { p with
    sympified := true
    quantities := p.quantities.map Quantity.sympify
    switches := p.switches.map Switch.sympify }

/-- `Problem.subs_all` (symbolic_problem.py:232-258).  `controls`, `custom_functions` and `tables` have the no-op
`GenericStruct.subs_self`. -/
def subsAll (x : Name) (e : Expr) (p : Prob) : Prob := { p with
  states := p.states.map (Dyn.subs x e)
  costates := p.costates.map (Dyn.subs x e)
  coparameters := p.coparameters.map (Dyn.subs x e)
  initial := p.initial.map (Con.subs x e)
  path := p.path.map (Con.subs x e)
  terminal := p.terminal.map (Con.subs x e)
  costInitial := Expr.subs x e p.costInitial
  costPath := Expr.subs x e p.costPath
  costTerminal := Expr.subs x e p.costTerminal
  quantities := p.quantities.map (Quantity.subs x e)
  switches := p.switches.map (Switch.subs x e)
  hamiltonian := p.hamiltonian.map (Expr.subs x e)
  quads := p.quads.map (Dyn.subs x e)
  symmetries := p.symmetries.map fun f => f.map (Expr.subs x e)
  coms := p.coms.map fun c => (c.1, Expr.subs x e c.2)
  units := p.units.map fun c => (c.1, Expr.subs x e c.2) }

end Prob

/-- What is left to sympy.  `solve eqs syms` is `sympy.solve(eqs, syms, dict=True)`: a list of solutions, each a list
of pairs.  `lu M b` is `M.LUsolve(b)`; an error stands for a singular matrix, a shape mismatch, or a solution that
contains complex infinity.  `integrate e x` is `sympy.integrate(e, x)` (mapping_functions.py:408, 441, 536, 572). -/
structure Sympy where
  solve : List Expr → List Name → List (List (Name × Expr))
  lu : List (List Expr) → List Expr → Py (List Expr)
  integrate : Expr → Name → Expr

/-! ### ApplyQuantities (mapping_functions.py:121-139) -/

/-- The inner loop (mapping_functions.py:130-132), for the quantity at position `i`. -/
def mergeRow (i : Nat) (qs : List Quantity) : Nat → List Quantity
  | 0 => qs
  | j + 1 =>
    let qs := mergeRow i qs j
    match qs[i]?, qs[j]? with
    | some qi, some qj => if qi.name ∈ qj.cached then qs.set j (qj.subs qi.name qi.expr) else qs
    | _, _ => qs

/-- The double loop (mapping_functions.py:129-132). -/
def mergeRows (n : Nat) (qs : List Quantity) : Nat → List Quantity
  | 0 => qs
  | i + 1 => mergeRow i (mergeRows n qs i) n

/-- The second loop (mapping_functions.py:134-135), from the quantity at position `k` to the end: the objects in the list are rewritten by
`subs_all` while the loop runs. -/
def elimLoop (p : Prob) : Nat → Prob
  | 0 => p
  | k + 1 =>
    let p := elimLoop p k
    match p.quantities[k]? with
    | some q => p.subsAll q.name q.expr
    | none => p

/-- `ApplyQuantities.transformation` (mapping_functions.py:124-139). -/
def applyQuantities (p : Prob) : Py Prob :=
  if !p.sympified then .error .valueError
  else
    let n := p.quantities.length
    .ok (elimLoop { p with quantities := mergeRows n p.quantities n } n)

/-! ### MomentumShift (mapping_functions.py:142-183) -/

/-- `state.eom.diff(new_state.sym) != 0` is decided by sympy on its normal form; here: the symbol occurs
(mapping_functions.py:171). -/
def dependsOn (x : Name) (e : Expr) : Bool := x ∈ e.free

/-- `MomentumShift.transformation`, with the default `new_ind_name=None` (mapping_functions.py:148-183). -/
def momentumShift (p : Prob) : Py Prob :=
  if !p.sympified then .error .valueError
  else
    let t := p.ind
    let states := p.states ++ [⟨t, 1⟩]
    let syms := p.symmetries.map fun f => f ++ [0]
    let indep := states.all fun s => !dependsOn t s.eom
    .ok { p with
      states := states
      ind := "_" ++ t
      symmetries := if indep then syms ++ [List.replicate (states.length - 1) 0 ++ [1]] else syms
      chain := p.chain ++ [.momentumShift (states.length - 1)] }

/-! ### EpsTrig (mapping_functions.py:186-225) -/

/-- `EpsTrig.transformation`.  Arithmetic with a missing bound or activator is a `TypeError`; the problem is mutated
before, which is not observable because the exception leaves `solve` (mapping_functions.py:186-225). -/
def epsTrig (p : Prob) : Py Prob :=
  if !p.sympified then .error .valueError
  else
    match p.path.findIdx? fun c => c.method = .epstrig with
    | none => .error .runtimeWarning
    | some i =>
      match p.path[i]? with
      | none => .error .runtimeWarning
      | some c =>
        match p.controls.findIdx? fun u => c.expr = sym u with
        | none => .error .notImplementedError
        | some k =>
          match p.controls[k]?, c.activator, c.lower, c.upper with
          | some u, some a, some lo, some hi =>
            let new := "_" ++ u ++ "_trig"
            let p1 : Prob := { p with
              path := p.path.eraseIdx i
              controls := p.controls.set k new
              costPath := p.costPath + (-a) * fn .cos (sym new) }
            let p2 := p1.subsAll u ((hi - lo) / 2 * fn .sin (sym new) + (hi + lo) / 2)
            .ok { p2 with chain := p2.chain ++ [.epsTrig k lo hi p2.ind (p2.states.map Dyn.name) p2.parameters
              p2.constants] }
          | _, _, _, _ => .error .typeError

/-! ### UTM (mapping_functions.py:228-288) -/

/-- The penalty term (mapping_functions.py:268-274). -/
def utmTerm (a e lo hi : Expr) : Expr :=
  a * (1 / fn .cos (pi / 2 * (2 * e - hi - lo) / (hi - lo)) - 1)

/-- The test of the three search loops (mapping_functions.py:237, 244, 251). -/
def isUtm (c : Con) : Bool := c.method = .utm && c.twoSided

/-- The search (mapping_functions.py:236-253): location 0, 1 or 2 and the index in that list. -/
def utmFind (p : Prob) : Option (Nat × Nat) :=
  match p.initial.findIdx? isUtm with
  | some i => some (0, i)
  | none =>
    match p.path.findIdx? isUtm with
    | some i => some (1, i)
    | none =>
      match p.terminal.findIdx? isUtm with
      | some i => some (2, i)
      | none => none

/-- The constraint list of a location (symbolic_problem.py:12-72). -/
def Prob.conList (p : Prob) : Nat → List Con
  | 0 => p.initial
  | 1 => p.path
  | _ => p.terminal

/-- `UTM.transformation`.  An activator that is not a declared constant is reported by `constraint['activator']`,
a `TypeError` (mapping_functions.py:264). -/
def utm (p : Prob) : Py Prob :=
  if !p.sympified then .error .valueError
  else
    match utmFind p with
    | none => .error .runtimeWarning
    | some (loc, i) =>
      match (p.conList loc)[i]? with
      | none => .error .runtimeWarning
      | some c =>
        match c.activator, c.lower, c.upper with
        | some a, some lo, some hi =>
          if p.constants.any fun k => a = sym k then
            let term := utmTerm a c.expr lo hi
            .ok { p with
              costInitial := if loc = 0 then p.costInitial + term else p.costInitial
              costPath := if loc = 1 then p.costPath + term else p.costPath
              costTerminal := if loc = 2 then p.costTerminal + term else p.costTerminal
              initial := if loc = 0 then p.initial.eraseIdx i else p.initial
              path := if loc = 1 then p.path.eraseIdx i else p.path
              terminal := if loc = 2 then p.terminal.eraseIdx i else p.terminal
              chain := p.chain ++ [.identity] }
          else .error .typeError
        | _, _, _ => .error .typeError

/-! ### RASHS (mapping_functions.py:291-301) -/

/-- The loop over the switches up to position `k`; the switches are rewritten by `subs_all` while it runs
(mapping_functions.py:298-299). -/
def rashsLoop (p : Prob) : Nat → Prob
  | 0 => p
  | k + 1 =>
    let p := rashsLoop p k
    match p.switches[k]? with
    | some s => p.subsAll s.name s.symFunc
    | none => p

/-- `RASHS.transformation` (mapping_functions.py:291-301). -/
def rashs (p : Prob) : Py Prob :=
  if !p.sympified then .error .valueError else .ok (rashsLoop p p.switches.length)

/-! ### Dualize (mapping_functions.py:304-395) -/

/-- The `method` argument after `lower()` (mapping_functions.py:354-357, 451-460). -/
inductive Method where
  | traditional | diffyg | other
  deriving DecidableEq

/-- The multipliers of one boundary (mapping_functions.py:316-328): names `_nu_0_i` or `_nu_f_i`. -/
def nuNames (pre : String) (n : Nat) : List Name := (List.range n).map fun i => pre ++ toString i

/-- `cost += nu.sym * constraint.expr` over the constraints (mapping_functions.py:321, 328). -/
def augment (cost : Expr) (nus : List Name) (cons : List Con) : Expr :=
  (nus.zip cons).foldl (fun acc nc => acc + sym nc.1 * nc.2.expr) cost

/-- The name of a costate (mapping_functions.py:347). -/
def lamName (n : Name) : Name := "_lam_" ++ n

/-- `hamiltonian.expr += lam.sym * state.eom` (mapping_functions.py:333-338). -/
def hamiltonianOf (cost : Expr) (states : List Dyn) : Expr :=
  states.foldl (fun acc s => acc + sym (lamName s.name) * s.eom) cost

/-- `make_standard_symplectic_form` (differential_geometry.py:74-95) for `n` states and `n` costates. -/
def standardForm (n : Nat) : List (List Expr) :=
  (List.range (2 * n)).map fun i : Nat => (List.range (2 * n)).map fun j : Nat =>
    if i = j + n then (num (-1)) else if j = i + n then (num 1) else num 0

/-- `make_hamiltonian_vector_field` (differential_geometry.py:53-71) for an even square form. -/
def vectorField (S : Sympy) (H : Expr) (omega : List (List Expr)) (basis : List Name) : Py (List Expr) := do
  let x ← S.lu omega (basis.map fun b => H.diff b)
  .ok (x.map fun e => -e)

/-- The transversality conditions (mapping_functions.py:375-383) of one boundary. -/
def transversality (cost : Expr) (sign : Expr → Expr → Expr) (syms : List Name) (lams : List Dyn) : List Con :=
  (syms.zip lams).map fun sl => { expr := sign (sym sl.2.name) (cost.diff sl.1) }

/-- `noether(prob, symmetry)` (differential_geometry.py:168-192). -/
def noether (S : Sympy) (omega : List (List Expr)) (basis : List Name) (field : List Expr) : Py Expr := do
  let x ← S.lu omega field
  .ok ((basis.zip x).foldl (fun acc bx => acc + S.integrate bx.2 bx.1) 0)

/-- `for struct, rate in zip(structs, rates): struct.eom = rate` (mapping_functions.py:362-366). -/
def setEoms : List Dyn → List Expr → List Dyn
  | d :: ds, e :: es => { d with eom := e } :: setEoms ds es
  | ds, _ => ds

/-- `Dualize.transformation` (mapping_functions.py:304-395). -/
def dualize (S : Sympy) (m : Method) (p : Prob) : Py Prob :=
  if !p.sympified then .error .valueError
  else do
    let nu0 := nuNames "_nu_0_" p.initial.length
    let nuf := nuNames "_nu_f_" p.terminal.length
    let costInitial := augment p.costInitial nu0 p.initial
    let costTerminal := augment p.costTerminal nuf p.terminal
    let H := hamiltonianOf p.costPath p.states
    let names := p.states.map Dyn.name
    let costates0 : List Dyn := p.costates ++ names.map fun n => ⟨lamName n, 0⟩
    let coparameters0 : List Dyn := p.coparameters ++ p.parameters.map fun n => ⟨lamName n, 0⟩
    let symmetries := p.symmetries.map fun f => f ++ costates0.map fun _ => 0
    let coms0 := p.coms ++ [("hamiltonian", H)]
    let (costates, coparameters, omega, coms) ← match m with
      | .traditional =>
        let lams := setEoms (costates0 ++ coparameters0) ((names ++ p.parameters).map fun s => -(H.diff s))
        .ok (lams.take costates0.length, lams.drop costates0.length, p.omega, coms0)
      | .diffyg => do
        if (names ++ p.parameters).length ≠ (costates0 ++ coparameters0).length then .error .valueError
        let om := standardForm (names ++ p.parameters).length
        let basis := names ++ p.parameters ++ (costates0 ++ coparameters0).map Dyn.name
        let chi ← vectorField S H om basis
        let rates := chi.drop (chi.length - p.states.length)
        let costates := setEoms costates0 rates
        let stars ← symmetries.mapM (noether S om (names ++ costates0.map Dyn.name))
        .ok (costates, coparameters0, some om,
          coms0 ++ stars.zipIdx.map fun gi => ("com_" ++ toString gi.2, gi.1))
      | .other => .ok (costates0, coparameters0, p.omega, coms0)
    let lams := costates ++ coparameters
    let syms := names ++ p.parameters
    .ok { p with
      adjoints := p.adjoints ++ nu0 ++ nuf
      costInitial := costInitial
      costTerminal := costTerminal
      hamiltonian := some H
      costates := costates
      coparameters := coparameters
      symmetries := symmetries
      omega := omega
      coms := coms
      initial := p.initial ++ transversality costInitial (fun l d => l + d) syms lams
      terminal := p.terminal ++ transversality costTerminal (fun l d => l - d) syms lams ++
        [{ expr := costTerminal.diff p.ind + H }]
      chain := p.chain ++ [.dualize costates.length (p.adjoints ++ nu0 ++ nuf).length]
      dualized := true }

/-! ### Control laws (mapping_functions.py:398-503) -/

/-- `option[control_sym]` for every control (mapping_functions.py:412): a missing key is a `KeyError`. -/
def pickOption (controls : List Name) (opt : List (Name × Expr)) : Py (List Expr) :=
  controls.mapM fun u => match opt.lookup u with
    | some e => .ok e
    | none => .error .keyError

/-- `AlgebraicControlLaw.transformation` (mapping_functions.py:401-417). -/
def algebraicControl (S : Sympy) (p : Prob) : Py Prob :=
  if !p.dualized then .error .valueError
  else match p.hamiltonian with
    | none => .error .attributeError
    | some H => do
      let dhdu := p.controls.map fun u => H.diff u
      let law ← (S.solve dhdu p.controls).mapM (pickOption p.controls)
      .ok { p with dhdu := dhdu, controlLaw := law, chain := p.chain ++ [.algebraic] }

/-- `rows.jacobian(cols)` in sympy: both must be non-empty, otherwise `TypeError` (mapping_functions.py:438-439). -/
def jacobian (rows : List Expr) (cols : List Name) : Py (List (List Expr)) :=
  if rows = [] ∨ cols = [] then .error .typeError
  else .ok (rows.map fun r => cols.map fun c => r.diff c)

/-- `-dg_dx * eom` (mapping_functions.py:443). -/
def negDot (row : List Expr) (eom : List Expr) : Expr :=
  -((row.zip eom).foldl (fun acc ab => acc + ab.1 * ab.2) 0)

/-- The rows added to the form for the controls (mapping_functions.py:474-480): `n` states in all, `m` controls,
time at position `k`. -/
def controlForm (n m k : Nat) (udot : List Expr) : List (List Expr) :=
  (List.range (2 * n)).map fun i : Nat => (List.range (2 * n)).map fun j : Nat =>
    if i = k ∧ 2 * n - m ≤ j then -(udot.getD (j - (2 * n - m)) 0)
    else if j = k ∧ 2 * n - m ≤ i then udot.getD (i - (2 * n - m)) 0
    else if i = j + n then num (-1) else if j = i + n then num 1 else num 0

/-- `DifferentialControlLaw.transformation` (mapping_functions.py:425-503). -/
def differentialControl (S : Sympy) (m : Method) (p : Prob) : Py Prob :=
  if !p.dualized then .error .valueError
  else match p.hamiltonian with
    | none => .error .attributeError
    | some H => do
      let dyn := p.states ++ p.costates
      let g := p.controls.map fun u => H.diff u
      let dgdx ← jacobian g (dyn.map Dyn.name)
      let dgdu ← jacobian g p.controls
      let udot ← S.lu dgdu (dgdx.map fun r => negDot r (dyn.map Dyn.eom))
      let terminal := p.terminal ++ g.map fun gk => ({ expr := gk } : Con)
      let ctl : List Dyn := (p.controls.zip udot).map fun cu => ⟨cu.1, cu.2⟩
      let idxs := (List.range ctl.length).map (p.states.length + ·)
      match m with
      | .traditional =>
        .ok { p with
          terminal := terminal
          controls := p.controls.drop ctl.length
          states := p.states ++ ctl
          chain := p.chain ++ [.differential idxs] }
      | .diffyg => do
        let states := p.states ++ ctl
        let lams : List Dyn := ctl.map fun d => ⟨lamName d.name, 0⟩
        let costates := p.costates ++ lams
        if states.length ≠ costates.length then .error .valueError
        let om := controlForm states.length p.controls.length (p.states.length - 1) udot
        let chi ← vectorField S H om ((states ++ costates).map Dyn.name)
        let all := setEoms (states ++ costates) chi
        .ok { p with
          terminal := terminal
          initial := p.initial ++ lams.map fun l => ({ expr := sym l.name } : Con)
          controls := []
          states := all.take states.length
          costates := all.drop states.length
          omega := some om
          chain := p.chain ++ [.differentialDiffyG idxs] }
      | .other => .error .notImplementedError

/-! ### NormalizeTime, SquashToBVP, IgnoreQuads, analytical jacobians (mapping_functions.py:661-759) -/

/-- `NormalizeTime.transformation` with the default `new_ind_name=None` (mapping_functions.py:692-720). -/
def normalizeTime (p : Prob) : Py Prob :=
  if !p.sympified then .error .valueError
  else
    let delta := "_delta" ++ p.ind
    .ok { p with
      parameters := p.parameters ++ [delta]
      states := p.states.map fun s => { s with eom := s.eom * sym delta }
      costates := p.costates.map fun s => { s with eom := s.eom * sym delta }
      costPath := p.costPath * sym delta
      ind := "_tau"
      chain := p.chain ++ [.normalizeTime p.parameters.length] }

/-- `SquashToBVP.transformation` (mapping_functions.py:664-683).  The slice of the adjoints is computed after
`constraint_parameters` has been extended. -/
def squash (p : Prob) : Py Prob :=
  let cps := p.constraintParams ++ p.adjoints
  .ok { p with
    states := p.states ++ p.costates
    costates := []
    quads := p.quads ++ p.coparameters
    coparameters := []
    constraintParams := cps
    adjoints := []
    chain := p.chain ++ [.squash p.states.length (p.states.length + p.costates.length)
      p.quads.length (p.quads.length + p.coparameters.length) cps.length (cps.length + p.adjoints.length)]
    dualized := false }

/-- `IgnoreQuads.transformation` (mapping_functions.py:723-729). -/
def ignoreQuads (p : Prob) : Py Prob := .ok { p with states := p.states ++ p.quads, quads := [] }

/-- `ComputeAnalyticalJacobians.transformation` (mapping_functions.py:732-759); only the state equations' Jacobians are
kept. -/
def analyticalJacobians (p : Prob) : Py Prob := do
  let names := p.states.map Dyn.name
  let eoms := p.states.map Dyn.eom
  let dfdy ← jacobian eoms names
  let _ ← jacobian (p.initial.map Con.expr) names
  let _ ← jacobian (p.terminal.map Con.expr) names
  let pars := p.parameters ++ p.constraintParams
  let dfdp ← if pars.length > 0 then do
      let d ← jacobian eoms p.parameters
      let _ ← jacobian (p.initial.map Con.expr) pars
      let _ ← jacobian (p.terminal.map Con.expr) pars
      pure d
    else pure []
  if p.quads.length > 0 then
    let _ ← jacobian (p.initial.map Con.expr) (p.quads.map Dyn.name)
    let _ ← jacobian (p.terminal.map Con.expr) (p.quads.map Dyn.name)
  .ok { p with dfdy := dfdy, dfdp := dfdp }

/-! ### The pipelines (mapping_functions.py:784-938) -/

/-- One functor of a pipeline (mapping_functions.py:797-938). -/
inductive Step where
  | momentumShift | epsTrig | utm | rashs
  | dualize (m : Method)
  | algebraic
  | differential (m : Method)
  | normalizeTime | squash | jacobians
  deriving DecidableEq

/-- The `transformation` of a functor (mapping_functions.py:103-107). -/
def Step.run (S : Sympy) : Step → Prob → Py Prob
  | .momentumShift => Sym.momentumShift
  | .epsTrig => Sym.epsTrig
  | .utm => Sym.utm
  | .rashs => Sym.rashs
  | .dualize m => Sym.dualize S m
  | .algebraic => algebraicControl S
  | .differential m => differentialControl S m
  | .normalizeTime => Sym.normalizeTime
  | .squash => Sym.squash
  | .jacobians => analyticalJacobians

/-- A composed functor applies its parts in order (see `Verif.Functor`, property C35) (mapping_functions.py:103-107). -/
def runSteps (S : Sympy) (steps : List Step) (p : Prob) : Py Prob :=
  steps.foldlM (fun p s => s.run S p) p

/-- The functors for the two-sided constraints (mapping_functions.py:877-888). -/
def ineqSteps (cons : List Con) : Py (List Step) :=
  (cons.filter Con.twoSided).mapM fun c => match c.method with
    | .epstrig => .ok .epsTrig
    | .utm => .ok .utm
    | .other => .error .notImplementedError

/-- `control_method.lower()` (mapping_functions.py:900-907). -/
inductive ControlMethod where
  | algebraic | differential | other
  deriving DecidableEq

/-- The keyword arguments of `make_indirect_method` (mapping_functions.py:856-857); `reduction` is not modelled here. -/
structure Opts where
  analyticalJacobian : Bool := false
  controlMethod : ControlMethod := .differential
  method : Method := .traditional
  momentumShift : Bool := true
  normalizeTime : Bool := true

/-- `make_indirect_method` (mapping_functions.py:856-938): the list of functors, in order of application. -/
def indirectSteps (o : Opts) (p : Prob) : Py (List Step) := do
  let ineq ← ineqSteps (p.initial ++ p.path ++ p.terminal)
  let ctl ← match o.controlMethod with
    | .algebraic => .ok Step.algebraic
    | .differential => .ok (Step.differential o.method)
    | .other => .error .notImplementedError
  .ok ((if o.momentumShift then [.momentumShift] else []) ++ ineq ++
    (if p.switches.length > 0 then [.rashs] else []) ++ [.dualize o.method, ctl] ++
    (if o.normalizeTime then [.normalizeTime] else []) ++ [.squash] ++
    (if o.analyticalJacobian && o.controlMethod ≠ .algebraic then [.jacobians] else []))

/-- `make_direct_method` (mapping_functions.py:797-853). -/
def directSteps (jac shift norm : Bool) (p : Prob) : Py (List Step) := do
  let ineq ← ineqSteps (p.initial ++ p.path ++ p.terminal)
  .ok ((if shift then [.momentumShift] else []) ++ ineq ++ (if p.switches.length > 0 then [.rashs] else []) ++
    (if norm then [.normalizeTime] else []) ++ (if jac then [.jacobians] else []))

/-- `make_preprocessor()(prob)` (mapping_functions.py:788-795). -/
def preprocess (p : Prob) : Py Prob := do
  let p ← p.sympify
  applyQuantities p

/-- `make_indirect_method(prob)(prob)` as in `solve` (beluga.py:131-147). -/
def indirect (S : Sympy) (o : Opts) (p : Prob) : Py Prob := do
  let p ← preprocess p
  let steps ← indirectSteps o p
  runSteps S steps p

end Beluga.Sym
