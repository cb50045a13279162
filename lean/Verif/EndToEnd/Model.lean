import Verif.Reported.Model

/-!
# Mapping a solution of the boundary value problem back to the user's problem

`Problem.inv_map_sol` (symbolic/data_classes/symbolic_problem.py:323-337) with the mappers that the functors of
`make_indirect_method` append to `sol_map_chain` (numeric/data_classes/trajectory_mappers.py).  `Verif.Mappers` takes the
compiled functions inside the mappers as arbitrary functions; here they are the functions that the mappers compile from the
problem before or after their functor.

Simplifications: exact arithmetic; a mapper raises when it is applied and not when it is built; `MFMapper` is left out
(`reduction` is not part of `indirectSteps`).
-/

namespace Beluga.E2E

open Beluga.Sym Beluga.Sym.Expr Beluga.Num Beluga.Map

variable {K : Type} [Field K] [LinearOrder K]

/-- The loop of `EpsTrigMapper.inv_map` (trajectory_mappers.py:103-107). -/
def epsLoop (idx : Nat) (f : K → K → List K → Py K) : List K → List (List K) → List (List K) → Py (List (List K))
  | t :: ts, y :: ys, u :: us => do
    let x ← Py.get u idx
    let v ← f x t y
    let rest ← epsLoop idx f ts ys us
    .ok (u.set idx v :: rest)
  | _ :: _, _ :: _, [] => .error .indexError
  | [], _, us => .ok us
  | _, [], us => .ok us

/-- `self.inv_map_func` (trajectory_mappers.py:72-95): the bounds are functions of `(t, y, dyn, const)`. -/
def epsFunc (O : TrigOps K) (I : Interp K) (lo hi : Expr) (args : List (List Name)) (dyn const : List K) (x t : K) (y : List K) : Py K := do
  let l ← lambdify I args lo [[t], y, dyn, const]
  let h ← lambdify I args hi [[t], y, dyn, const]
  .ok (epsBackward O l h x)

/-- `EpsTrigMapper.inv_map` (trajectory_mappers.py:103-109). -/
def epsInv (idx : Nat) (f : K → K → List K → Py K) (s : Sol K) : Py (Sol K) :=
  match s.u with
  | .empty => if s.t = [] ∨ s.y.rowList = [] then .ok s else .error .indexError
  | .rows c r => do
    let r' ← epsLoop idx f s.t s.y.rowList r
    .ok { s with u := .rows c r' }

/-- `inv_map` of the mapper that a functor appended, between the problems `before` and `after` the functor
(trajectory_mappers.py:53-365). -/
def invTag (O : TrigOps K) (rule : List K → List K → K) (I : Interp K) (before after : Prob) (tag : MapTag) (s : Sol K) :
    Py (Sol K) :=
  match tag with
  | .identity => Mapper.inv O .identity s
  | .momentumShift idx => Mapper.inv O (.momentumShift idx) s
  | .epsTrig idx lo hi ind st ps cs => epsInv idx (epsFunc O I lo hi [[ind], st, ps, cs] s.dyn s.const) s
  | .dualize _ _ => do
    -- trajectory_mappers.py:137-147
    let c ← Rep.computeCost rule I before s.t s.y s.q s.u s.dyn s.const
    .ok { s with nondyn := [], cost := some c }
  | .algebraic => do
    -- trajectory_mappers.py:224-227
    let r ← (s.t.zip (s.y.rowList.zip s.dual.rowList)).mapM fun x => mapperU I after x.1 x.2.1 x.2.2 s.dyn s.const
    .ok { s with u := if r = [] then .empty else .rows after.controls.length r }
  | .differential idxs => Mapper.inv O (.differential idxs) s
  | .differentialDiffyG idxs => Mapper.inv O (.differentialDiffyG idxs) s
  | .mf => .error .notImplementedError
  | .squash a b _ _ c d => Mapper.inv O (.squash a b c d) s
  | .normalizeTime idx => Mapper.inv O (.normalizeTime idx) s

/-- The mappers that a functor appended to the chain (symbolic_problem.py:323-334). -/
def newTags (before after : Prob) : List MapTag := after.chain.drop before.chain.length

/-- The reversed part of the chain that belongs to one functor (symbolic_problem.py:323-334). -/
def invTags (O : TrigOps K) (rule : List K → List K → K) (I : Interp K) (before after : Prob) : List MapTag → Sol K → Py (Sol K)
  | [], s => .ok s
  | tag :: tags, s => do
    let s' ← invTags O rule I before after tags s
    invTag O rule I before after tag s'

/-- `inv_map_sol` over the part of the chain that the functors `steps` append to the chain of `p`: the last mapper comes
first (symbolic_problem.py:323-326). -/
def invSteps (S : Sympy) (O : TrigOps K) (rule : List K → List K → K) (I : Interp K) : List Step → Prob → Sol K → Py (Sol K)
  | [], _, s => .ok s
  | step :: steps, p, s => do
    let p1 ← step.run S p
    let s1 ← invSteps S O rule I steps p1 s
    invTags O rule I p p1 (newTags p p1) s1

/-- `inv_map_sol` of the problem that `indirect` makes of `p` (symbolic_problem.py:333-334). -/
def invIndirect (S : Sympy) (O : TrigOps K) (rule : List K → List K → K) (I : Interp K) (o : Opts) (p : Prob) (s : Sol K) :
    Py (Sol K) := do
  let p1 ← preprocess p
  let steps ← indirectSteps o p1
  invSteps S O rule I steps p1 s

end Beluga.E2E
