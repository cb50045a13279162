import Verif.Py
import Mathlib.Data.List.Sort

/-!
# Model of `beluga/numeric/data_classes/trajectory_mappers.py` and of `Problem.map_sol`

Two-dimensional arrays are lists of rows (one row per time point) with an explicit number of columns, because numpy
distinguishes the one-dimensional `array([])` from an array of shape `(0, n)` or `(n, 0)`.
-/

namespace Beluga.Map

variable {K : Type _}

/-- A numpy array attribute of a trajectory (`y`, `dual`, `q`, `u`, `dual_u`): the one-dimensional empty array
(the default, Trajectory.py:30-36) or a two-dimensional array. -/
inductive Arr (K : Type _) where
  | empty
  | rows (cols : Nat) (r : List (List K))
  deriving DecidableEq

namespace Arr

/-- The rows met when iterating over the array (trajectory_mappers.py:103-107, 224-226). -/
def rowList : Arr K → List (List K)
  | .empty => []
  | .rows _ r => r

/-- `len(a)` (trajectory_mappers.py:44, 132, 266, 356). -/
def len (a : Arr K) : Nat := a.rowList.length

/-- All rows have the stated number of columns (Trajectory.py:27-56). -/
def Shape (a : Arr K) (T c : Nat) : Prop := ∃ r, a = .rows c r ∧ r.length = T ∧ ∀ x ∈ r, x.length = c

/-- `np.insert(a, i, v, axis=1)` for a position `0 ≤ i` and a one-dimensional `v`.  A one-dimensional `a` raises
`AxisError` (a `ValueError`), a bad position `IndexError`, a length mismatch (after broadcasting) `ValueError`
(trajectory_mappers.py:47-48, 237, 256). -/
def insertCol (a : Arr K) (i : Nat) (v : List K) : Py (Arr K) :=
  match a with
  | .empty => .error .valueError
  | .rows c r =>
    if c < i then .error .indexError
    else if v.length = r.length then .ok (.rows (c + 1) (List.zipWith (fun row x => npInsert row i [x]) r v))
    else match v with
      | [x] => .ok (.rows (c + 1) (r.map fun row => npInsert row i [x]))
      | _ => .error .valueError

/-- `np.insert(a, -1, v, axis=1)`: before the last column (trajectory_mappers.py:265, 269). -/
def insertColBeforeLast (a : Arr K) (v : List K) : Py (Arr K) :=
  match a with
  | .empty => .error .valueError
  | .rows c r => if c = 0 then .error .indexError else insertCol (.rows c r) (c - 1) v

/-- Row without the entries whose position (counted from `off`) is in `idxs` (trajectory_mappers.py:239, 244, 273, 278-279). -/
def deleteFrom (idxs : List Nat) : Nat → List K → List K
  | _, [] => []
  | off, x :: xs => if off ∈ idxs then deleteFrom idxs (off + 1) xs else x :: deleteFrom idxs (off + 1) xs

/-- `np.delete(a, idxs, axis=1)` for a list of non-negative positions (trajectory_mappers.py:239, 244, 273, 278-279). -/
def deleteCols (a : Arr K) (idxs : List Nat) : Py (Arr K) :=
  match a with
  | .empty => .error .valueError
  | .rows c r =>
    if ∀ i ∈ idxs, i < c then .ok (.rows (deleteFrom idxs 0 (List.range c)).length (r.map (deleteFrom idxs 0)))
    else .error .indexError

/-- `np.delete(a, i, axis=1)` for one position (trajectory_mappers.py:57, 60). -/
def deleteCol (a : Arr K) (i : Nat) : Py (Arr K) :=
  match a with
  | .empty => .error .valueError
  | .rows c r => if i < c then .ok (.rows (c - 1) (r.map (·.eraseIdx i))) else .error .indexError

/-- `np.delete(a, slice(start, stop), axis=1)` for `start ≤ stop` (trajectory_mappers.py:363). -/
def deleteSlice (a : Arr K) (start stop : Nat) : Py (Arr K) :=
  match a with
  | .empty => .error .valueError
  | .rows c r => .ok (.rows (c - (min stop c - min start c)) (r.map fun row => row.take start ++ row.drop stop))

/-- `a[:, start:stop]` for `start ≤ stop` (trajectory_mappers.py:362). -/
def slice (a : Arr K) (start stop : Nat) : Py (Arr K) :=
  match a with
  | .empty => .error .indexError
  | .rows c r => .ok (.rows (min stop c - min start c) (r.map fun row => (row.take stop).drop start))

/-- `a[:, i]` (trajectory_mappers.py:56, 59). -/
def col (a : Arr K) (i : Nat) [Zero K] : Py (List K) :=
  match a with
  | .empty => .error .indexError
  | .rows c r => if i < c then .ok (r.map fun row => row.getD i 0) else .error .indexError

/-- `a[:, idxs]` (trajectory_mappers.py:243, 277). -/
def pick (a : Arr K) (idxs : List Nat) [Zero K] : Py (Arr K) :=
  match a with
  | .empty => .error .indexError
  | .rows c r =>
    if ∀ i ∈ idxs, i < c then .ok (.rows idxs.length (r.map fun row => idxs.map fun i => row.getD i 0))
    else .error .indexError

/-- The columns, i.e. iterating over `a.T`; the transpose of `array([])` is itself (trajectory_mappers.py:236, 255). -/
def columns (a : Arr K) [Zero K] : List (List K) :=
  match a with
  | .empty => []
  | .rows c r => (List.range c).map fun j : Nat => r.map fun row => row.getD j 0

/-- `np.concatenate((a, b), axis=1)` (trajectory_mappers.py:357). -/
def hcat (a b : Arr K) : Py (Arr K) :=
  match a, b with
  | .rows c r, .rows d s => if r.length = s.length then .ok (.rows (c + d) (List.zipWith (· ++ ·) r s))
    else .error .valueError
  | _, _ => .error .valueError

/-- `np.column_stack((a, v))` for a one-dimensional `v`; the one-dimensional `array([])` is turned into a column, so
the lengths differ unless `v` is empty (trajectory_mappers.py:313). -/
def stackCol (a : Arr K) (v : List K) : Py (Arr K) :=
  match a with
  | .empty => if v = [] then .ok (.rows 2 []) else .error .valueError
  | .rows c r => if r.length = v.length then .ok (.rows (c + 1) (List.zipWith (fun row x => row ++ [x]) r v))
    else .error .valueError

end Arr

/-- `Trajectory` (Trajectory.py:27-56) without the interpolation function; `cost` is `none` for NaN. -/
structure Sol (K : Type _) where
  t : List K
  dualT : List K
  y : Arr K
  dual : Arr K
  q : Arr K
  u : Arr K
  dualU : Arr K
  dyn : List K
  nondyn : List K
  const : List K
  converged : Bool
  cost : Option K
  deriving DecidableEq

/-- Where `MishchenkoFomenko` removed a column (mapping_functions.py:626-641). -/
inductive Loc where
  | states (i : Nat)
  | costates (i : Nat)
  | none
  deriving DecidableEq

/-- Sine and arcsine as used by `EpsTrigMapper` (trajectory_mappers.py:72-95). -/
structure TrigOps (K : Type _) where
  sin : K → K
  asin : K → K

/-- The mapper objects.  Compiled functions are arbitrary functions of the arguments the code passes; bounds of
`epsTrig` are functions of `(t, y, dyn, const)`.  `ind_state_idx`/`delta_ind_idx` are always given by the functors
(mapping_functions.py:180, 716), so the `None` branches are not modelled. -/
inductive Mapper (K : Type _) where
  /-- trajectory_mappers.py:28-33 -/
  | identity
  /-- trajectory_mappers.py:36-62 -/
  | momentumShift (idx : Nat)
  /-- trajectory_mappers.py:65-109 -/
  | epsTrig (idx : Nat) (lower upper : K → List K → List K → List K → K)
  /-- trajectory_mappers.py:112-147; `computeCost` is `compute_cost` -/
  | dualize (nuLen : Nat) (computeCost : Sol K → K)
  /-- trajectory_mappers.py:150-176 -/
  | normalizeTime (idx : Nat)
  /-- trajectory_mappers.py:179-227; `m` is the number of controls -/
  | algebraic (m : Nat) (computeU : K → List K → List K → List K → List K → List K)
  /-- trajectory_mappers.py:230-245 -/
  | differential (idxs : List Nat)
  /-- trajectory_mappers.py:248-280 with the default `control_costate = 0.` -/
  | differentialDiffyG (idxs : List Nat)
  /-- trajectory_mappers.py:283-346 -/
  | mf (par sym : Loc) (p : List K → List K → List K → List K → K) (q : List K → List K → List K → List K → K)
      (pInv : List K → List K → List K → List K → K) (qInv : List K → List K → List K → List K → List K → K)
  /-- trajectory_mappers.py:349-366: the slices of the costates and of the adjoints -/
  | squash (coStart coStop adjStart adjStop : Nat)

section
variable [Field K] [LinearOrder K]

/-- The loop of `EpsTrigMapper.map`/`inv_map` (trajectory_mappers.py:98-100, 105-107): rows of `u` are rewritten as
long as there are time points and states. -/
def epsLoop (idx : Nat) (f : K → K → List K → K) : List K → List (List K) → List (List K) → Py (List (List K))
  | t :: ts, y :: ys, u :: us => do
    let x ← Py.get u idx
    let rest ← epsLoop idx f ts ys us
    .ok (u.set idx (f x t y) :: rest)
  | _ :: _, _ :: _, [] => .error .indexError
  | [], _, us => .ok us
  | _, [], us => .ok us

/-- `self.map_func` (trajectory_mappers.py:82-94): `asin((u - u_offset) / u_range)`. -/
def epsForward (O : TrigOps K) (lo hi x : K) : K := O.asin ((x - (hi + lo) / 2) / (hi - lo))

/-- `self.inv_map_func` (trajectory_mappers.py:82-95): `u_range/2 * sin(u_trig) + u_offset`. -/
def epsBackward (O : TrigOps K) (lo hi x : K) : K := (hi - lo) / 2 * O.sin x + (hi + lo) / 2

/-- Application of the loop to the array `u` (trajectory_mappers.py:97-109). -/
def epsApply (idx : Nat) (f : K → K → List K → K) (s : Sol K) : Py (Sol K) :=
  match s.u with
  | .empty => if s.t = [] ∨ s.y.rowList = [] then .ok s else .error .indexError
  | .rows c r => do
    let r' ← epsLoop idx f s.t s.y.rowList r
    .ok { s with u := .rows c r' }

/-- `sorted(zip(control_idxs, sol.u.T))` (trajectory_mappers.py:236, 255); positions are distinct, so the columns are
never compared. -/
def sortedCols (idxs : List Nat) (u : Arr K) : List (Nat × List K) :=
  (List.zip idxs u.columns).insertionSort fun a b => a.1 ≤ b.1

/-- The loop inserting the control columns into the states (trajectory_mappers.py:236-238). -/
def insertAll : List (Nat × List K) → Arr K → Py (Arr K)
  | [], y => .ok y
  | (i, v) :: rest, y => do
    let y' ← y.insertCol i v
    insertAll rest y'

/-- The `dual`/`dual_u` part of the loop of `DifferentialControlMapperDiffyG.map` (trajectory_mappers.py:258-269) with
`control_costate = 0.`; it is run once per inserted control. -/
def diffyGDual (T : Nat) : Nat → Arr K → Arr K → Py (Arr K × Arr K)
  | 0, d, du => .ok (d, du)
  | n + 1, d, du => do
    let ins := List.replicate T (0 : K)
    let d' ← d.insertColBeforeLast ins
    let du' ← if du.len = 0 then .ok (.rows T [ins]) else du.insertColBeforeLast ins
    diffyGDual T n d' du'

/-- Removing a column at a location (trajectory_mappers.py:303-311). -/
def removeAt (l : Loc) (s : Sol K) : Py (Sol K) :=
  match l with
  | .states i => do let y ← s.y.deleteCol i; .ok { s with y := y }
  | .costates i => do let d ← s.dual.deleteCol i; .ok { s with dual := d }
  | .none => .ok s

/-- Putting a column back (trajectory_mappers.py:326-342): `column_stack` of the part before, the column, the part
after; a position past the end puts it at the end. -/
def putBack (l : Loc) (v : List K) (s : Sol K) : Py (Sol K) :=
  match l with
  | .states i =>
    match s.y with
    | .empty => .error .indexError
    | .rows c r =>
      if r.length = v.length then
        .ok { s with y := .rows (c + 1) (List.zipWith (fun row x => npInsert row i [x]) r v) }
      else .error .valueError
  | .costates i =>
    match s.dual with
    | .empty => .error .indexError
    | .rows c r =>
      if r.length = v.length then
        .ok { s with dual := .rows (c + 1) (List.zipWith (fun row x => npInsert row i [x]) r v) }
      else .error .valueError
  | .none => .ok s

/-- Evaluating a function row by row over `enumerate(sol.t)` (trajectory_mappers.py:300-301, 320-322). -/
def rowVals {β : Type _} (f : List K → List K → β) : List K → List (List K) → List (List K) → Py (List β)
  | [], _, _ => .ok []
  | _ :: ts, y :: ys, d :: ds => do
    let rest ← rowVals f ts ys ds
    .ok (f y d :: rest)
  | _ :: _, _, _ => .error .indexError

/-- `map` of each mapper class (trajectory_mappers.py:28-366). -/
def Mapper.map (O : TrigOps K) (m : Mapper K) (s : Sol K) : Py (Sol K) :=
  match m with
  | .identity => .ok s
  | .momentumShift idx => do
    let dualT := if s.dualT.length = 0 then s.t.map fun _ => 0 else s.dualT
    let y ← s.y.insertCol idx s.t
    let dual ← s.dual.insertCol idx dualT
    .ok { s with dualT := dualT, y := y, dual := dual }
  | .epsTrig idx lo hi => epsApply idx (fun x t y => epsForward O (lo t y s.dyn s.const) (hi t y s.dyn s.const) x) s
  | .dualize nuLen _ => .ok (if s.nondyn.length = 0 then { s with nondyn := List.replicate nuLen 1 } else s)
  | .normalizeTime idx =>
    match s.t.head?, s.t.getLast? with
    | some t0, some tf =>
      if idx ≤ s.dyn.length then
        .ok { s with dyn := npInsert s.dyn idx [tf - t0], t := s.t.map fun t => (t - t0) / (tf - t0) }
      else .error .indexError
    | _, _ => .error .indexError
  | .algebraic _ _ => .ok s
  | .differential idxs => do
    let cols := sortedCols idxs s.u
    let y ← insertAll cols s.y
    let u ← s.u.deleteCols (List.range cols.length)
    .ok { s with y := y, u := u }
  | .differentialDiffyG idxs => do
    let cols := sortedCols idxs s.u
    let y ← insertAll cols s.y
    let (dual, dualU) ← diffyGDual s.t.length cols.length s.dual s.dualU
    let u ← s.u.deleteCols (List.range cols.length)
    .ok { s with y := y, dual := dual, dualU := dualU, u := u }
  | .mf par sym p q _ _ => do
    let y0 ← Py.get s.y.rowList 0
    let d0 ← Py.get s.dual.rowList 0
    let dyn := s.dyn ++ [p y0 d0 s.dyn s.const]
    let qv ← rowVals (fun y d => q y d dyn s.const) s.t s.y.rowList s.dual.rowList
    let s1 ← removeAt par { s with dyn := dyn }
    let s2 ← removeAt sym s1
    let q' ← s2.q.stackCol qv
    .ok { s2 with q := q' }
  | .squash _ _ _ _ =>
    if s.dual.len > 0 then do
      let y ← s.y.hcat s.dual
      .ok { s with y := y }
    else .ok s

/-- `inv_map` of each mapper class.  (`dualize` with the default `retain_dual = True`.) (trajectory_mappers.py:28-366). -/
def Mapper.inv (O : TrigOps K) (m : Mapper K) (s : Sol K) : Py (Sol K) :=
  match m with
  | .identity => .ok s
  | .momentumShift idx => do
    let t ← s.y.col idx
    let y ← s.y.deleteCol idx
    let dualT ← s.dual.col idx
    let dual ← s.dual.deleteCol idx
    .ok { s with t := t, y := y, dualT := dualT, dual := dual }
  | .epsTrig idx lo hi => epsApply idx (fun x t y => epsBackward O (lo t y s.dyn s.const) (hi t y s.dyn s.const) x) s
  | .dualize _ computeCost =>
    let s1 := { s with nondyn := [] }
    .ok { s1 with cost := some (computeCost s1) }
  | .normalizeTime idx => do
    let dt ← Py.get s.dyn idx
    .ok { s with t := s.t.map fun t => t * dt, dyn := s.dyn.eraseIdx idx }
  | .algebraic m computeU =>
    let r := (List.zip s.t (List.zip s.y.rowList s.dual.rowList)).map
      fun x => computeU x.1 x.2.1 x.2.2 s.dyn s.const
    .ok { s with u := if r = [] then .empty else .rows m r }
  | .differential idxs => do
    let u ← s.y.pick idxs
    let y ← s.y.deleteCols idxs
    .ok { s with u := u, y := y }
  | .differentialDiffyG idxs => do
    let u ← s.y.pick idxs
    let y ← s.y.deleteCols idxs
    let dual ← s.dual.deleteCols idxs
    .ok { s with u := u, y := y, dual := dual }
  | .mf par sym _ _ pInv qInv => do
    -- `sol.q[ii]` is read before `fn_p_inv`; both loops stop with `IndexError` if an array is too short
    let qi ← rowVals (fun y d => (y, d)) s.t s.y.rowList s.dual.rowList
    let qr ← rowVals (fun q _ => q) s.t s.q.rowList s.q.rowList
    let qv := List.zipWith (fun (yd : List K × List K) q => qInv yd.1 yd.2 q s.dyn s.const) qi qr
    let pv := qi.map fun yd => pInv yd.1 yd.2 s.dyn s.const
    let s1 ← putBack par pv s
    let s2 ← putBack sym qv s1
    match s2.q with
    | .empty => .error .valueError
    | .rows c r =>
      if c = 0 then .error .indexError
      else .ok { s2 with q := .rows (c - 1) (r.map (·.eraseIdx (c - 1))), dyn := s2.dyn.dropLast }
  | .squash a b c d => do
    let dual ← s.y.slice a b
    let y ← s.y.deleteSlice a b
    .ok { s with dual := dual, y := y, nondyn := s.nondyn.take c ++ s.nondyn.drop d }

/-- `Problem.map_sol(sol)` (symbolic_problem.py:323-334): the mappers in order. -/
def mapSol (O : TrigOps K) : List (Mapper K) → Sol K → Py (Sol K)
  | [], s => .ok s
  | m :: ms, s => do
    let s' ← m.map O s
    mapSol O ms s'

/-- `Problem.map_sol(sol, inverse=True)` (symbolic_problem.py:324-326): the inverses over the reversed chain. -/
def invLoop (O : TrigOps K) : List (Mapper K) → Sol K → Py (Sol K)
  | [], s => .ok s
  | m :: ms, s => do
    let s' ← m.inv O s
    invLoop O ms s'

/-- `inv_map_sol` (symbolic_problem.py:333-334). -/
def invMapSol (O : TrigOps K) (chain : List (Mapper K)) (s : Sol K) : Py (Sol K) := invLoop O chain.reverse s

end

end Beluga.Map
