import Verif.Mappers.Model
import Verif.Numeric.Lemmas

/-!
# Model of `NumericProblem.compile_scaling` (NumericProblem.py:366-422)

A float is an `Option K`; `none` is a value that is not a finite number (`inf` or `NaN`, which a division by zero
produces and which no later multiplication by the same factor turns back).
-/

namespace Beluga.Num

open Beluga.Sym Beluga.Sym.Expr Beluga.Map

section
variable {K : Type} [Field K] [LinearOrder K]

/-- `np.divide`. -/
def fdiv : Option K → Option K → Option K
  | some x, some f => if f = 0 then none else some (x / f)
  | _, _ => none

/-- `np.multiply`. -/
def fmul : Option K → Option K → Option K
  | some x, some f => some (x * f)
  | _, _ => none

variable {F : Type}

/-- `op(row, factors)` with numpy's broadcasting of one-dimensional arrays. -/
def bcast (op : F → F → F) (row fs : List F) : Py (List F) :=
  if row.length = fs.length then .ok (List.zipWith op row fs)
  else match fs, row with
    | [f], _ => .ok (row.map fun x => op x f)
    | _, [x] => .ok (fs.map fun f => op x f)
    | _, _ => .error .valueError

/-- The same for a trajectory array of any shape: `array([])` or rows. -/
def bcastArr (op : F → F → F) (a : Arr F) (fs : List F) : Py (Arr F) :=
  match a with
  | .empty => if fs.length ≤ 1 then .ok .empty else .error .valueError
  | .rows c r =>
    if c = fs.length ∨ fs.length = 1 ∨ c = 1 then do
      let r ← r.mapM fun row => bcast op row fs
      .ok (.rows (if c = 1 then fs.length else c) r)
    else .error .valueError

/-- The factors computed for a trajectory, in the order of `scalable_components_list` (NumericProblem.py:377-384). -/
structure Factors (F : Type) where
  t : F
  y : List F
  q : List F
  u : List F
  dyn : List F
  nondyn : List F
  const : List F

/-- `sol.u.size > 0`. -/
def nonEmpty : Arr F → Bool
  | .empty => false
  | .rows c r => decide (0 < c * r.length)

/-- `scale_sol` (NumericProblem.py:401-421).  `sol` is deep-copied; everything not listed is kept. -/
def scaleSol (op : F → F → F) (fs : Factors F) (s : Sol F) : Py (Sol F) := do
  let y ← bcastArr op s.y fs.y
  let q ← bcastArr op s.q fs.q
  let u ← if nonEmpty s.u then bcastArr op s.u fs.u else .ok s.u
  let dyn ← bcast op s.dyn fs.dyn
  let nondyn ← bcast op s.nondyn fs.nondyn
  let const ← bcast op s.const fs.const
  .ok { s with
    t := s.t.map fun x => op x fs.t
    y := y, q := q, u := u, dyn := dyn, nondyn := nondyn, const := const }

/-- `scale_sol(sol, factors)`. -/
def scale (fs : Factors (Option K)) (s : Sol (Option K)) : Py (Sol (Option K)) := scaleSol fdiv fs s

/-- `scale_sol(sol, factors, inv=True)`. -/
def unscale (fs : Factors (Option K)) (s : Sol (Option K)) : Py (Sol (Option K)) := scaleSol fmul fs s

/-- The largest magnitude of a non-empty list. -/
def maxAbs (x : K) (l : List K) : K := l.foldl (fun m y => max m |y|) |x|

/-- `max_mag(arr)` (helper_functions.py:13-24) of a two-dimensional array: one entry per column, nothing for an array of
size zero. -/
def maxMag : Arr K → List K
  | .empty => []
  | .rows c r => match r with
    | [] => []
    | x :: rest => (List.range c).map fun j : Nat => maxAbs (x.getD j 0) (rest.map fun row => row.getD j 0)

/-- The declared units of the components (`getattr_from_list(component, 'units')`) and the unit definitions
(`prob.units`: name and the expression that sizes it). -/
structure Units where
  defs : List (Name × Expr)
  ind : Expr
  states : List Expr
  quads : List Expr
  controls : List Expr
  parameters : List Expr
  constraintParams : List Expr
  constants : List Expr

/-- `compute_scale_factors` (NumericProblem.py:390-399).  `max_mag(sol.t)` of an empty time array is an empty array; it is
only used if a unit is defined by the independent variable, which then is a shape error. -/
def scaleFactors (I : Interp K) (p : Prob) (un : Units) (t : List K) (y q : Arr K) (dyn nondyn const : List K) :
    Py (Factors K) := do
  let t0 ← match t with
    | [] => .error .valueError
    | x :: rest => .ok (maxAbs x rest)
  let sizes ← lambdifyL I [[p.ind], sts p, qds p, p.parameters, p.constraintParams, p.constants] (un.defs.map Prod.snd)
    [[t0], maxMag y, maxMag q, dyn.map abs, nondyn.map abs, const.map abs]
  let names := un.defs.map fun d => [d.1]
  let vals := sizes.map fun x => [x]
  let ft ← lambdify I names un.ind vals
  let fy ← lambdifyL I names un.states vals
  let fq ← lambdifyL I names un.quads vals
  let fu ← lambdifyL I names un.controls vals
  let fd ← lambdifyL I names un.parameters vals
  let fn ← lambdifyL I names un.constraintParams vals
  let fc ← lambdifyL I names un.constants vals
  .ok ⟨ft, fy, fq, fu, fd, fn, fc⟩

end

end Beluga.Num
