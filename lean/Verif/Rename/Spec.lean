import Verif.EndToEnd.Model

/-!
# Other names for the same things

What it means that two problems are the same up to the names of their variables (C92).
-/

namespace Beluga.Rename

open Beluga.Sym Beluga.Sym.Expr

/-- The expression with other names.  Tables and user functions keep theirs. -/
def ren (r : Name → Name) : Expr → Expr
  | num q => num q
  | pi => pi
  | sym s => sym (r s)
  | add a b => add (ren r a) (ren r b)
  | mul a b => mul (ren r a) (ren r b)
  | inv a => inv (ren r a)
  | pow a n => pow (ren r a) n
  | fn f a => fn f (ren r a)

/-- A state with other names. -/
def renD (r : Name → Name) (d : Dyn) : Dyn := ⟨r d.name, ren r d.eom⟩

/-- A constraint with other names. -/
def renC (r : Name → Name) (c : Con) : Con :=
  { expr := ren r c.expr, lower := c.lower.map (ren r), upper := c.upper.map (ren r), activator := c.activator.map (ren r),
    method := c.method }

/-- A quantity with other names. -/
def renQ (r : Name → Name) (q : Quantity) : Quantity := ⟨r q.name, ren r q.expr, q.cached.map r⟩

/-- A switch with other names. -/
def renW (r : Name → Name) (s : Switch) : Switch :=
  ⟨r s.name, s.functions.map (ren r), s.conditions.map (List.map (ren r)), ren r s.tol, ren r s.symFunc⟩

/-- A mapper with other names. -/
def renT (r : Name → Name) : MapTag → MapTag
  | .epsTrig i lo hi ind st ps cs => .epsTrig i (ren r lo) (ren r hi) (r ind) (st.map r) (ps.map r) (cs.map r)
  | t => t

/-- The problem with other names.  Constants of motion and units keep their labels. -/
def renP (r : Name → Name) (p : Prob) : Prob where
  ind := r p.ind
  states := p.states.map (renD r)
  costates := p.costates.map (renD r)
  parameters := p.parameters.map r
  coparameters := p.coparameters.map (renD r)
  controls := p.controls.map r
  controlLaw := p.controlLaw.map (List.map (ren r))
  initial := p.initial.map (renC r)
  path := p.path.map (renC r)
  terminal := p.terminal.map (renC r)
  constraintParams := p.constraintParams.map r
  adjoints := p.adjoints.map r
  costInitial := ren r p.costInitial
  costPath := ren r p.costPath
  costTerminal := ren r p.costTerminal
  constants := p.constants.map r
  quantities := p.quantities.map (renQ r)
  switches := p.switches.map (renW r)
  hamiltonian := p.hamiltonian.map (ren r)
  dhdu := p.dhdu.map (ren r)
  quads := p.quads.map (renD r)
  symmetries := p.symmetries.map (List.map (ren r))
  coms := p.coms.map fun c => (c.1, ren r c.2)
  units := p.units.map fun c => (c.1, ren r c.2)
  omega := p.omega.map (List.map (List.map (ren r)))
  dfdy := p.dfdy.map (List.map (ren r))
  dfdp := p.dfdp.map (List.map (ren r))
  chain := p.chain.map (renT r)
  sympified := p.sympified
  dualized := p.dualized

/-- sympy does the same up to names. -/
structure Alike (r : Name → Name) (S S' : Sympy) : Prop where
  solve : ∀ eqs syms, S'.solve (eqs.map (ren r)) (syms.map r) =
    (S.solve eqs syms).map (List.map fun xe => (r xe.1, ren r xe.2))
  lu : ∀ M b, S'.lu (M.map (List.map (ren r))) (b.map (ren r)) = (S.lu M b).map (List.map (ren r))
  integrate : ∀ e x, S'.integrate (ren r e) (r x) = ren r (S.integrate e x)

/-- The name of the angle that replaces a control, `k` times. -/
def angle : Nat → Name → Name
  | 0, u => u
  | k + 1, u => angle k ("_" ++ u ++ "_trig")

/-- The names that beluga makes up are renamed with the names they are made of: the time is called `t`, there are costates of `dyn` and
of the controls, and up to `n` times a control is replaced by an angle. -/
structure Names (r : Name → Name) (t : Name) (dyn controls : List Name) (n : Nat) : Prop where
  inj : Function.Injective r
  tau : r "_tau" = "_tau"
  delta : r ("_delta" ++ t) = "_delta" ++ r t
  nu0 : ∀ i : Nat, r ("_nu_0_" ++ toString i) = "_nu_0_" ++ toString i
  nuf : ∀ i : Nat, r ("_nu_f_" ++ toString i) = "_nu_f_" ++ toString i
  lam : ∀ x ∈ dyn, r ("_lam_" ++ x) = "_lam_" ++ r x
  angle : ∀ u ∈ controls, ∀ k ≤ n, r (angle k u) = angle k (r u)
  lamu : ∀ u ∈ controls, ∀ k ≤ n, r ("_lam_" ++ Rename.angle k u) = "_lam_" ++ Rename.angle k (r u)

/-- The names that beluga makes up for a problem: with the momentum shift, time becomes a state and the new time gets a name made of the
old one. -/
structure Made (r : Name → Name) (shift : Bool) (p : Prob) : Prop where
  time : shift = true → r ("_" ++ p.ind) = "_" ++ r p.ind
  names : Names r (if shift then "_" ++ p.ind else p.ind)
    (p.states.map Dyn.name ++ (if shift then [p.ind] else []) ++ p.parameters) p.controls p.path.length

end Beluga.Rename
