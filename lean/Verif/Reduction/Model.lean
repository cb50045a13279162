import Verif.Symbolic.Recursive

/-!
# Reduction by constants of motion

`MishchenkoFomenko` (mapping_functions.py:506-658), which `make_indirect_method` applies for `method='diffyg'` and
`reduction=True` (mapping_functions.py:919-921), and the part of `noether` and `pb` that it uses
(differential_geometry.py:148-165, 194-202).

Simplifications: units are left out; the compiled functions for the mapper are left out (the mapper is `Mapper.mf` in
`Verif/Mappers`).  sympy rewrites expressions automatically; the tests that depend on this ask `Tools.zero`.
-/

namespace Beluga.Sym

open Expr

/-- sympy, and whether sympy's automatic simplification turns an expression into zero (mapping_functions.py:506-658). -/
structure Tools extends Sympy where
  zero : Expr → Bool

/-- `is_symplectic` (differential_geometry.py:118-145). -/
def symplectic (T : Tools) : Option (List (List Expr)) → Bool
  | none => false
  | some om => om.length % 2 = 0 && om.all (fun r => r.length = om.length) &&
      (List.range om.length).all fun i => (List.range om.length).all fun j =>
        if i = j then T.zero ((om.getD i []).getD i 0)
        else T.zero ((om.getD i []).getD j 0 + (om.getD j []).getD i 0)

/-- `sum(omega[i, j]*diff(expr, z_j))` for all rows: `pb(None, com, prob)` (differential_geometry.py:156-163) and `rvec`
(mapping_functions.py:576-579). -/
def field (om : List (List Expr)) (names : List Name) (e : Expr) : List Expr :=
  (List.range names.length).map fun i =>
    names.zipIdx.foldl (fun acc nj => acc + (om.getD i []).getD nj.2 0 * e.diff nj.1) 0

/-- `nonz[0][0]` (differential_geometry.py:196-198): `IndexError` if there is none, or if `prob.states` is too short. -/
def noetherUnit (T : Tools) (nStates : Nat) (h : List Expr) : Py Unit :=
  match h.findIdx? fun e => !T.zero e with
  | none => .error .indexError
  | some i => if i < nStates then .ok () else .error .indexError

/-- `recursive_sub(e, sol_p)` followed by `recursive_sub(e, sol_q)` (mapping_functions.py:580-625). -/
def sub2 (sp sq : List (Name × Expr)) (e : Expr) : Expr := (recursiveSub sq (recursiveSub sp e).1).1

/-- The index that is left after a loop that assigns the position of `key` (mapping_functions.py:542-548): keys that are no
state or costate leave it unchanged. -/
def lastIndex (names : List Name) (keys : List Name) : Nat :=
  keys.foldl (fun acc k => if k ∈ names then names.idxOf k else acc) 0

/-- The conjugate coordinate (mapping_functions.py:556-561). -/
def conjugate (T : Tools) (com : Name × Expr) (names : List Name) (h : List Expr) (sp : List (Name × Expr)) : Expr :=
  (recursiveSub sp ((names.zip h).foldl (fun acc nh => acc + T.integrate (com.2 / sym com.1 * nh.2) nh.1) 0)).1

/-- Substitution in the boundary conditions (mapping_functions.py:595-597): only the expression. -/
def subCon (f : Expr → Expr) (c : Con) : Con := { c with expr := f c.expr }

/-- Rows and columns `i` and `j` of the form are deleted (mapping_functions.py:630-643), the larger index first. -/
def deleteTwo (om : List (List Expr)) (i j : Nat) : List (List Expr) :=
  let del (l : List (List Expr)) (i : Nat) := (l.eraseIdx i).map fun r => r.eraseIdx i
  if i > j then del (del om i) j else del (del om j) i

/-- `MishchenkoFomenko(k).transformation` (mapping_functions.py:512-658).  `pi` and `qi` are `parameter_index` and `symmetry_index`;
the latter may be negative, which Python counts from the end.  The rates of the quadratures, the costs, the Hamiltonian and the
coparameters are not substituted. -/
def mfReduce (T : Tools) (k : Nat) (p : Prob) : Py Prob :=
  if ¬ symplectic T p.omega then .ok p
  else match p.coms[k]? with
  | none => .error .indexError
  | some com =>
    let zs := p.states ++ p.costates
    let names := zs.map Dyn.name
    let om := p.omega.getD []
    let atoms := com.2.free.dedup.filter fun s => s ∉ p.parameters ++ p.constants
    match T.solve [com.2 - sym com.1] atoms with
    | [] => .error .indexError
    | _ :: _ :: _ => .error .valueError
    | [sp] =>
      if sp = [] then .error .typeError
      else
        let h := field om names com.2
        match noetherUnit T p.states.length h with
        | .error e => .error e
        | .ok _ =>
          let pi := lastIndex names (sp.map Prod.fst)
          let parameters := p.parameters ++ ((sp.map Prod.fst).filter (· ∈ names)).map fun _ => com.1
          let qi := if p.states.length ≤ pi then pi - p.states.length else zs.length + pi - p.states.length
          let q := "_q_" ++ toString p.quads.length
          let lhs := conjugate T com names h sp
          match names[qi]? with
          | none => .error .indexError
          | some x =>
            match T.solve [lhs - sym q] [x] with
            | [] => .error .indexError
            | sq :: _ =>
              let f := sub2 sp sq
              let rate := (zs.zip h).foldl (fun acc dh => acc + dh.1.eom * dh.2) 0
              let sub (d : Dyn) : Dyn := { d with eom := f d.eom }
              if p.controlLaw ≠ [] then .error .attributeError
              else
                let keep (l : List Dyn) (off : Nat) : List Dyn :=
                  ((l.zipIdx off).filter fun di => di.2 ≠ pi ∧ di.2 ≠ qi).map fun di => sub di.1
                .ok { p with
                  parameters := parameters
                  quads := p.quads ++ [⟨q, rate⟩]
                  states := keep p.states 0
                  costates := keep p.costates p.states.length
                  initial := p.initial.map (subCon f)
                  terminal := p.terminal.map (subCon f)
                  coms := (p.coms.zipIdx.filter fun ci => ci.2 ≠ k).map fun ci => (ci.1.1, f ci.1.2)
                  omega := some (deleteTwo om pi qi)
                  chain := p.chain ++ [.mf] }

/-- `MishchenkoFomenko(1)**n` (mapping_functions.py:919-921, 74-84). -/
def mfPow (T : Tools) : Nat → Prob → Py Prob
  | 0, p => .ok p
  | n + 1, p => do
    let p ← mfReduce T 1 p
    mfPow T n p

end Beluga.Sym
